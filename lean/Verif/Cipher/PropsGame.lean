import Verif.Cipher.LemmasGame

/-!
# C90: `Cipher` hides messages and accepts only what it returned, as far as its parts do
-/

namespace Verif.Cipher.Game

open Verif Verif.Mac Verif.Avg

/-! ### The attacks on one key are legal -/

theorem single_legal (P : Prims) (s₀ : Block 16) (A : Block 16 → Bool) (R : Block 16 → Block 32) (S : Att) :
    ∀ (U : List (Block 16)) (C : List Bytes) (r : Option Bytes), (s₀ ∉ U → r = none) →
      (∀ e, r = some e → toBytes s₀ ++ e ∈ C) → Legal r (single P s₀ A R U C S) := by
  induction S with
  | done b => intro U C r _ _; trivial
  | flip f ih => intro U C r h1 h2 b; exact ih b U C r h1 h2
  | enc m0 m1 c ih =>
    intro U C r h1 h2
    simp only [single]
    by_cases c1 : m0.length = m1.length
    · rw [if_pos c1]
      by_cases c2 : m0 = []
      · rw [if_pos c2]; exact ih _ U C r h1 h2
      · rw [if_neg c2]
        intro s
        beta_reduce
        by_cases c3 : U.contains s = true
        · rw [if_pos c3]; trivial
        · rw [if_neg c3]
          have hs : s ∉ U := by simpa using c3
          by_cases c4 : s = s₀
          · subst c4
            rw [if_pos rfl]
            refine ⟨h1 hs, c1, fun e => ih _ _ _ _ (fun h => absurd List.mem_cons_self h) ?_⟩
            intro e' he'
            cases he'
            exact List.mem_cons_self
          · rw [if_neg c4]
            refine ih _ _ _ r (fun h => h1 fun h' => h (List.mem_cons_of_mem _ h')) fun e he => ?_
            exact List.mem_cons_of_mem _ (h2 e he)
    · rw [if_neg c1]; exact ih _ U C r h1 h2
  | dec x c ih =>
    intro U C r h1 h2
    simp only [single]
    by_cases c1 : (decide (x.length ≤ 32) || C.contains x) = true
    · rw [if_pos c1]; exact ih _ U C r h1 h2
    · rw [if_neg c1]
      simp only [Bool.or_eq_true, decide_eq_true_eq, not_or, List.contains_iff_mem] at c1
      by_cases c2 : saltOf x = s₀
      · rw [if_pos c2]
        refine ⟨?_, fun o => ih _ U C r h1 h2⟩
        intro hr
        have := h2 _ hr
        rw [← c2, toBytes_saltOf (by omega), List.take_append_drop] at this
        exact c1.2 this
      · rw [if_neg c2]
        split
        · exact ih _ U C r h1 h2
        · exact ih _ U C r h1 h2

theorem single_decs (P : Prims) (s₀ : Block 16) (A : Block 16 → Bool) (R : Block 16 → Block 32) (S : Att) :
    ∀ (qe qd : Nat) (U : List (Block 16)) (C : List Bytes), AtMost qe qd S → Decs qd (single P s₀ A R U C S) := by
  have mono : ∀ (D : One) (q : Nat), Decs q D → Decs (q + 1) D := by
    intro D
    induction D with
    | done => intro q _; trivial
    | flip f ih => intro q h b; exact ih b q (h b)
    | enc m0 m1 c ih => intro q h e; exact ih e q (h e)
    | dec e c ih =>
      intro q h
      refine ⟨by omega, fun o => ?_⟩
      have := ih o (q - 1) (h.2 o)
      have hq := h.1
      rwa [show q - 1 + 1 = q + 1 - 1 by omega] at this
  induction S with
  | done b => intro qe qd U C _; trivial
  | flip f ih =>
    intro qe qd U C h
    cases h with
    | flip h => exact fun b => ih b qe qd U C (h b)
  | enc m0 m1 c ih =>
    intro qe qd U C h
    cases h with
    | @enc qe _ _ _ _ h =>
      simp only [single]
      split
      · split
        · exact ih _ qe qd U C (h _)
        · intro s
          beta_reduce
          split
          · trivial
          · split
            · exact fun e => ih _ qe qd _ _ (h _)
            · exact ih _ qe qd _ _ (h _)
      · exact ih _ qe qd U C (h _)
  | dec x c ih =>
    intro qe qd U C h
    cases h with
    | @dec _ qd _ _ h =>
      simp only [single]
      split
      · exact mono _ _ (ih _ qe qd U C (h _))
      · split
        · refine ⟨by omega, fun o => ?_⟩
          exact ih _ qe qd U C (h _)
        · split
          · exact mono _ _ (ih _ qe qd U C (h _))
          · exact mono _ _ (ih _ qe qd U C (h _))

theorem AtMost.mono {qe qd : Nat} {S : Att} (h : AtMost qe qd S) : ∀ {qe' qd' : Nat}, qe ≤ qe' → qd ≤ qd' → AtMost qe' qd' S := by
  induction h with
  | done b => intro _ _ _ _; exact .done b
  | flip _ ih => intro _ _ h1 h2; exact .flip fun b => ih b h1 h2
  | enc _ ih =>
    intro qe' qd' h1 h2
    obtain ⟨q, rfl⟩ : ∃ q, qe' = q + 1 := ⟨qe' - 1, by omega⟩
    exact .enc fun y => ih y (by omega) h2
  | dec _ ih =>
    intro qe' qd' h1 h2
    obtain ⟨q, rfl⟩ : ∃ q, qd' = q + 1 := ⟨qd' - 1, by omega⟩
    exact .dec fun y => ih y h1 (by omega)

theorem rest_atMost {S S' : Att} (hr : Rest S S') {qe qd : Nat} (h : AtMost qe qd S) : AtMost qe qd S' := by
  induction hr with
  | refl => exact h
  | flip b _ ih => cases ih with | flip h => exact h b
  | enc y _ ih => cases ih with | enc h => exact (h y).mono (by omega) (Nat.le_refl _)
  | dec y _ ih => cases ih with | dec h => exact (h y).mono (Nat.le_refl _) (by omega)

/-- **C90** The attacks on one key that an attack on `Cipher` is turned into encrypt at most once, two messages of the same
length, do not decrypt what they got from encryption, and decrypt at most as often as the attack on `Cipher`. -/
theorem c90_derived {P : Prims} {S : Att} {qe qd : Nat} (hq : AtMost qe qd S) {N : Bytes} {D : One}
    (h : Derived P S N D) : Legal none D ∧ Decs qd D := by
  cases h with
  | rest s A R U C hr _ hs =>
    exact ⟨single_legal P s A R _ U C none (fun _ => rfl) (fun e he => nomatch he),
      single_decs P s A R _ qe qd U C (rest_atMost hr hq)⟩
  | @first m0 m1 c s A R U C hr hl _ hs =>
    refine ⟨⟨rfl, hl, fun e => single_legal P s A R _ _ _ _ (fun h => absurd List.mem_cons_self h) ?_⟩, fun e => ?_⟩
    · intro e' he'
      cases he'
      exact List.mem_cons_self
    · exact single_decs P s A R _ qe qd _ _ (rest_atMost (.enc _ hr) hq)

/-! ### Salts that come twice -/

theorem bit_range (b : Bool) : 0 ≤ bit b ∧ bit b ≤ 1 := by cases b <;> simp [bit]

theorem world_range (P : Prims) (junk : Nat → UInt8) (w : Bool) (k : Bytes) (S : Att) :
    ∀ C, 0 ≤ world P junk w k C S ∧ world P junk w k C S ≤ 1 := by
  induction S with
  | done b => intro C; exact bit_range b
  | flip f ih => intro C; exact ⟨E_nonneg fun b => (ih b C).1, E_le_one fun b => (ih b C).2⟩
  | enc m0 m1 c ih =>
    intro C
    simp only [world]
    split
    · exact ⟨E_nonneg fun s => (ih _ _).1, E_le_one fun s => (ih _ _).2⟩
    · exact ih _ _
  | dec x c ih => intro C; exact ih _ _

theorem mix_range (P : Prims) (A : Block 16 → Bool) (R : Block 16 → Block 32) (S : Att) :
    ∀ U C, 0 ≤ mix P A R U C S ∧ mix P A R U C S ≤ 1 := by
  induction S with
  | done b => intro U C; exact bit_range b
  | flip f ih => intro U C; exact ⟨E_nonneg fun b => (ih b U C).1, E_le_one fun b => (ih b U C).2⟩
  | enc m0 m1 c ih =>
    intro U C
    simp only [mix]
    split
    · split
      · exact ih _ _ _
      · refine ⟨E_nonneg fun s => ?_, E_le_one fun s => ?_⟩
        · split
          · exact le_refl _
          · exact (ih _ _ _).1
        · split
          · exact zero_le_one
          · exact (ih _ _ _).2
    · exact ih _ _ _
  | dec x c ih =>
    intro U C
    simp only [mix]
    split
    · exact ih _ _ _
    · split
      · exact ih _ _ _
      · exact ih _ _ _

theorem coll_nonneg : ∀ u q, 0 ≤ coll u q
  | _, 0 => le_refl _
  | u, q + 1 => add_nonneg (div_nonneg (Nat.cast_nonneg _) (by norm_num)) (coll_nonneg (u + 1) q)

theorem coll_mono : ∀ u q, coll u q ≤ coll (u + 1) q
  | _, 0 => le_refl _
  | u, q + 1 => by
    refine add_le_add ?_ (coll_mono (u + 1) q)
    refine div_le_div_of_nonneg_right ?_ (by norm_num)
    exact_mod_cast Nat.le_succ u

theorem coll_step (u q : Nat) : coll u q ≤ coll u (q + 1) := by
  have := coll_mono u q
  have h : (0 : ℚ) ≤ (u : ℚ) / 2 ^ 128 := div_nonneg (Nat.cast_nonneg _) (by norm_num)
  rw [coll]
  linarith

/-- The probability that two of `q` salts are equal, in closed form. -/
theorem coll_eq (u q : Nat) : coll u q = (u * q + q * (q - 1) / 2) / 2 ^ 128 := by
  induction q generalizing u with
  | zero => simp [coll]
  | succ q ih =>
    rw [coll, ih]
    push_cast
    ring

theorem world_mix {P : Prims} (hP : P.Ok) (junk : Nat → UInt8) (w : Bool) (R : Block 16 → Block 32) (S : Att) :
    ∀ (qe qd : Nat), AtMost qe qd S → ∀ U C,
      |world (withKdf P R) junk w [] C S - mix P (fun _ => w) R U C S| ≤ coll U.length qe := by
  induction S with
  | done b =>
    intro qe qd _ U C
    simp only [world, mix, sub_self, abs_zero]
    exact coll_nonneg _ _
  | flip f ih =>
    intro qe qd h U C
    cases h with
    | flip h => exact abs_E_sub_le _ _ fun b => ih b qe qd (h b) U C
  | enc m0 m1 c ih =>
    intro qe qd h U C
    cases h with
    | @enc qe _ _ _ _ h =>
      simp only [world, mix]
      by_cases c1 : m0.length = m1.length
      · rw [if_pos c1, if_pos c1]
        have hem : ((if w then m1 else m0) = []) ↔ m0 = [] := by
          cases w
          · simp
          · simp only [if_true]
            rw [← List.length_eq_zero_iff, ← List.length_eq_zero_iff, c1]
        simp only [encrypt_withKdf hP, hem]
        by_cases c2 : m0 = []
        · simp only [if_pos c2, returned, List.nil_append]
          rw [E_const]
          exact le_trans (ih _ qe qd (h _) U C) (coll_step _ _)
        · simp only [if_neg c2, returned, List.singleton_append]
          have hb : E (fun s : Block 16 => (if U.contains s then (1 : ℚ) else 0) + coll (U.length + 1) qe) ≤
              coll U.length (qe + 1) := by
            rw [E_add, E_const, coll]
            have h1 := E_mem_le U
            rw [card_block] at h1
            have e : ((256 ^ 16 : Nat) : ℚ) = 2 ^ 128 := by norm_num
            rw [e] at h1
            exact add_le_add h1 (le_refl _)
          refine le_trans (abs_E_sub_le_E _ _ _ fun s => ?_) hb
          by_cases c3 : U.contains s = true
          · rw [if_pos c3, if_pos c3, sub_zero]
            have := world_range (withKdf P R) junk w []
              (c (.ok (toBytes s ++ P.enc (toBytes (R s)) (nonceOf s) (if w then m1 else m0))))
              ((toBytes s ++ P.enc (toBytes (R s)) (nonceOf s) (if w then m1 else m0)) :: C)
            rw [abs_of_nonneg this.1]
            exact le_trans this.2 (le_add_of_nonneg_right (coll_nonneg _ _))
          · rw [if_neg c3, if_neg c3, zero_add]
            exact ih _ qe qd (h _) (s :: U) _
      · rw [if_neg c1, if_neg c1]
        exact le_trans (ih _ qe qd (h _) U C) (coll_step _ _)
  | dec x c ih =>
    intro qe qd h U C
    cases h with
    | @dec _ qd _ _ h =>
      have e : mix P (fun _ => w) R U C (.dec x c) =
          mix P (fun _ => w) R U C (c (if w || C.contains x then reject x
            else decryptString (withKdf P R) (some []) x)) := by
        simp only [mix, decrypt_withKdf hP]
        cases w <;> by_cases c1 : x.length ≤ 32 <;> by_cases c2 : x ∈ C <;> simp [c1, c2]
      rw [e]
      exact ih _ qe qd (h _) U C

/-- **C90** The key is used for nothing but the key derivation. -/
theorem c90_code (P : Prims) (junk : Nat → UInt8) (w : Bool) (k : Bytes) (S : Att) :
    ∀ C, world P junk w k C S = world (fixKdf P k) junk w [] C S := by
  have he : ∀ s m, encryptString P junk (some k) s m = encryptString (fixKdf P k) junk (some []) s m := fun s m => rfl
  have hd : ∀ x, decryptString P (some k) x = decryptString (fixKdf P k) (some []) x := fun x => rfl
  induction S with
  | done b => intro C; rfl
  | flip f ih => intro C; simp only [world, ih]
  | enc m0 m1 c ih => intro C; simp only [world, ih, he]
  | dec x c ih => intro C; simp only [world, ih, hd]

/-- **C90** No attack that asks for at most `qe` encryptions and `qd` decryptions tells the real world, where `Cipher`
encrypts the first message and decrypts, from the ideal world, where it encrypts the second message and accepts nothing, by
more than: the advantages against the key derivation, the probability that salts come twice, and for every question the
advantage of attacks on one key of the authenticated encryption. -/
theorem c90_cipher {P : Prims} (hP : P.Ok) (junk : Nat → UInt8) {S : Att} {qe qd : Nat} (hq : AtMost qe qd S) {ε : ℚ}
    (h0 : 0 ≤ ε) (hε : ∀ N D, Derived P S N D → adv1 P N D ≤ ε) :
    |E (fun k : Block 32 => world P junk false (toBytes k) [] S) -
        E (fun k : Block 32 => world P junk true (toBytes k) [] S)| ≤
      advKdf P junk false S + advKdf P junk true S + qe * (qe - 1) / 2 ^ 128 + ((qe + qd : Nat) : ℚ) * ε := by
  have hw : ∀ w, |E (fun R : Block 16 → Block 32 => world (withKdf P R) junk w [] [] S) -
      E (fun R => mix P (fun _ => w) R [] [] S)| ≤ coll 0 qe := fun w =>
    abs_E_sub_le _ _ fun R => world_mix hP junk w R S qe qd hq [] []
  have hm := mix_hybrid h0 hε S .refl qe qd hq (fun _ => false) [] [] (fun s hs => nomatch hs) (fun x hx => nomatch hx)
  have h1 := hw false
  have h2 := hw true
  have hc : coll 0 qe + coll 0 qe = qe * (qe - 1) / 2 ^ 128 := by
    rw [coll_eq]
    push_cast
    ring
  simp only [c90_code P junk]
  unfold advKdf
  generalize E (fun k : Block 32 => world (fixKdf P (toBytes k)) junk false [] [] S) = a0 at *
  generalize E (fun k : Block 32 => world (fixKdf P (toBytes k)) junk true [] [] S) = a1 at *
  generalize E (fun R : Block 16 → Block 32 => world (withKdf P R) junk false [] [] S) = b0 at *
  generalize E (fun R : Block 16 → Block 32 => world (withKdf P R) junk true [] [] S) = b1 at *
  generalize E (fun R : Block 16 → Block 32 => mix P (fun _ => false) R [] [] S) = c0 at *
  generalize E (fun R : Block 16 → Block 32 => mix P (fun _ => true) R [] [] S) = c1 at *
  have t1 := abs_sub_le a0 b0 a1
  have t2 := abs_sub_le b0 c0 a1
  have t3 := abs_sub_le c0 c1 a1
  have t4 := abs_sub_le c1 b1 a1
  rw [abs_sub_comm c1 b1] at t4
  rw [abs_sub_comm b1 a1] at t4
  linarith

/-! ### Forgeries -/

/-- The attack that only looks for a decryption that is accepted. -/
def watch : Att → Att
  | .done _ => .done false
  | .flip f => .flip fun b => watch (f b)
  | .enc m0 m1 c => .enc m0 m1 fun y => watch (c y)
  | .dec x c => .dec x fun y => match y with
    | .ok _ => .done true
    | .exc e => watch (c (.exc e))
    | .ub => watch (c .ub)

theorem watch_ideal (P : Prims) (junk : Nat → UInt8) (k : Bytes) (S : Att) :
    ∀ C, world P junk true k C (watch S) = 0 := by
  induction S with
  | done b => intro C; rfl
  | flip f ih => intro C; simp only [watch, world, ih, E_const]
  | enc m0 m1 c ih => intro C; simp only [watch, world, ih, E_const, ite_self]
  | dec x c ih =>
    intro C
    simp only [watch, world, Bool.true_or, if_true]
    unfold reject
    by_cases h : x.length ≤ 32
    · simp only [h, if_true, ih]
    · simp only [h, if_false, ih]

theorem watch_atMost {S : Att} {qe qd : Nat} (h : AtMost qe qd S) : AtMost qe qd (watch S) := by
  induction h with
  | done b => exact .done _
  | flip _ ih => exact .flip ih
  | enc _ ih => exact .enc ih
  | dec _ ih =>
    unfold watch
    refine .dec fun y => ?_
    cases y with
    | ok m => exact .done _
    | exc e => exact ih _
    | ub => exact ih _

/-- **C90** The probability that some string that was not returned by encryption is accepted by decryption. -/
theorem c90_forgery {P : Prims} (hP : P.Ok) (junk : Nat → UInt8) {S : Att} {qe qd : Nat} (hq : AtMost qe qd S) {ε : ℚ}
    (h0 : 0 ≤ ε) (hε : ∀ N D, Derived P (watch S) N D → adv1 P N D ≤ ε) :
    E (fun k : Block 32 => world P junk false (toBytes k) [] (watch S)) ≤
      advKdf P junk false (watch S) + advKdf P junk true (watch S) + qe * (qe - 1) / 2 ^ 128 + ((qe + qd : Nat) : ℚ) * ε := by
  have h := c90_cipher hP junk (watch_atMost hq) h0 hε
  simp only [watch_ideal, E_const, sub_zero] at h
  exact le_trans (le_abs_self _) h

/-! ### Left or right, with decryption -/

/-- The attack that asks for the second messages only. -/
def second : Att → Att
  | .done b => .done b
  | .flip f => .flip fun b => second (f b)
  | .enc m0 m1 c => if m0.length = m1.length then .enc m1 m1 fun y => second (c y) else .enc m0 m1 fun y => second (c y)
  | .dec x c => .dec x fun y => second (c y)

theorem second_ideal (P : Prims) (junk : Nat → UInt8) (k : Bytes) (S : Att) :
    ∀ C, world P junk true k C (second S) = world P junk true k C S := by
  induction S with
  | done b => intro C; rfl
  | flip f ih => intro C; simp only [second, world, ih]
  | enc m0 m1 c ih =>
    intro C
    simp only [second]
    by_cases h : m0.length = m1.length
    · rw [if_pos h]
      simp only [world, ih, if_pos h, if_true]
    · rw [if_neg h]
      simp only [world, ih, if_neg h]
  | dec x c ih => intro C; simp only [second, world, ih]

theorem second_atMost {S : Att} {qe qd : Nat} (h : AtMost qe qd S) : AtMost qe qd (second S) := by
  induction h with
  | done b => exact .done _
  | flip _ ih => exact .flip ih
  | enc _ ih =>
    simp only [second]
    split
    · exact .enc ih
    · exact .enc ih
  | dec _ ih => exact .dec ih

/-- **C90** Even with decryption of everything that encryption did not return, encryptions of the first messages are not told
from encryptions of the second messages. -/
theorem c90_messages {P : Prims} (hP : P.Ok) (junk : Nat → UInt8) {S : Att} {qe qd : Nat} (hq : AtMost qe qd S) {ε : ℚ}
    (h0 : 0 ≤ ε) (hε : ∀ N D, Derived P S N D → adv1 P N D ≤ ε)
    (hε' : ∀ N D, Derived P (second S) N D → adv1 P N D ≤ ε) :
    |E (fun k : Block 32 => world P junk false (toBytes k) [] S) -
        E (fun k : Block 32 => world P junk false (toBytes k) [] (second S))| ≤
      advKdf P junk false S + advKdf P junk true S + advKdf P junk false (second S) + advKdf P junk true (second S) +
        2 * (qe * (qe - 1) / 2 ^ 128 + ((qe + qd : Nat) : ℚ) * ε) := by
  have h1 := c90_cipher hP junk hq h0 hε
  have h2 := c90_cipher hP junk (second_atMost hq) h0 hε'
  simp only [second_ideal] at h2
  have t := abs_sub_le (E (fun k : Block 32 => world P junk false (toBytes k) [] S))
    (E (fun k : Block 32 => world P junk true (toBytes k) [] S))
    (E (fun k : Block 32 => world P junk false (toBytes k) [] (second S)))
  rw [abs_sub_comm (E (fun k : Block 32 => world P junk true (toBytes k) [] S))] at t
  linarith

/-! ### An example: the one-time pad for one byte -/

/-- Adds the first byte of the key to every byte; the tag is zero. -/
def pad : Prims where
  kdf k s := (k ++ s).reverse.take 32
  enc k _ m := m.map (· ^^^ k.headD 0) ++ List.replicate 16 0
  dec k _ c := if c.length ≥ 16 ∧ c.drop (c.length - 16) = List.replicate 16 0 then
    some ((c.take (c.length - 16)).map (· ^^^ k.headD 0)) else none

theorem map_xor (a : UInt8) (m : Bytes) : (m.map (· ^^^ a)).map (· ^^^ a) = m := by
  rw [List.map_map]
  have : ((fun x : UInt8 => x ^^^ a) ∘ fun x => x ^^^ a) = id := by
    funext x
    simp [UInt8.xor_assoc]
  rw [this, List.map_id]

theorem pad_ok : pad.Ok where
  dec_enc k n m := by
    simp only [pad]
    rw [if_pos ⟨by simp, by simp⟩]
    rw [List.length_append, List.length_replicate, Nat.add_sub_cancel, List.take_left, map_xor]
  enc_length k n m := by simp [pad]
  dec_sound k n c m h := by
    simp only [pad] at h ⊢
    split at h
    · rename_i hc
      injection h with h
      rw [← h, map_xor]
      conv_lhs => rw [← List.take_append_drop (c.length - 16) c, hc.2]
    · cases h

/-- Asks for an encryption of one byte, 1 or 2, and guesses by any test `t` of what comes back. -/
def oneByte (t : Bytes → Bool) : Att := .enc [1] [2] fun y => match y with
  | .ok x => .done (t x)
  | _ => .done false

/-- Changing the first byte of the key by `3 = 1 ^^^ 2` is a permutation of the keys. -/
def shift : Block 32 ≃ Block 32 where
  toFun K := fun i => if i = 0 then K i ^^^ 3 else K i
  invFun K := fun i => if i = 0 then K i ^^^ 3 else K i
  left_inv K := by funext i; by_cases h : i = 0 <;> simp [h, UInt8.xor_assoc]
  right_inv K := by funext i; by_cases h : i = 0 <;> simp [h, UInt8.xor_assoc]

theorem pad_shift (K : Block 32) (N : Bytes) : pad.enc (toBytes (shift K)) N [2] = pad.enc (toBytes K) N [1] := by
  have h : ∀ K : Block 32, (toBytes K).headD 0 = K 0 := fun K => rfl
  simp only [pad, h, List.map_cons, List.map_nil]
  have : (2 : UInt8) ^^^ (shift K 0) = 1 ^^^ K 0 := by
    show (2 : UInt8) ^^^ (if (0 : Fin 32) = 0 then K 0 ^^^ 3 else K 0) = 1 ^^^ K 0
    rw [if_pos rfl, ← UInt8.xor_assoc, UInt8.xor_comm (2 : UInt8) (K 0), UInt8.xor_assoc, UInt8.xor_comm]
    rfl
  rw [this]

theorem oneByte_rest {t : Bytes → Bool} {S : Att} (h : Rest (oneByte t) S) : S = oneByte t ∨ ∃ b, S = .done b := by
  induction h with
  | refl => exact Or.inl rfl
  | flip b _ ih => rcases ih with h | ⟨b, h⟩ <;> cases h
  | enc y _ ih =>
    rcases ih with h | ⟨b, h⟩
    · unfold oneByte at h
      injection h with _ _ h3
      subst h3
      cases y <;> exact Or.inr ⟨_, rfl⟩
    · cases h
  | dec y _ ih => rcases ih with h | ⟨b, h⟩ <;> cases h

theorem oneByte_enc (s : Block 16) (A : Block 16 → Bool) (R : Block 16 → Block 32) (U : List (Block 16)) (C : List Bytes)
    (t : Bytes → Bool) (N : Bytes) :
    E (fun K : Block 32 => oneVal pad false (toBytes K) N (singleEnc pad s A R U C [1] [2] fun y => match y with
      | .ok x => .done (t x)
      | _ => .done false)) =
    E (fun K : Block 32 => oneVal pad true (toBytes K) N (singleEnc pad s A R U C [1] [2] fun y => match y with
      | .ok x => .done (t x)
      | _ => .done false)) := by
  rw [← E_equiv shift (fun K : Block 32 => oneVal pad true (toBytes K) N (singleEnc pad s A R U C [1] [2] fun y =>
    match y with | .ok x => .done (t x) | _ => .done false))]
  refine congrArg E (funext fun K => ?_)
  simp only [singleEnc, oneVal, single, Bool.false_eq_true, if_false, if_true, pad_shift]

theorem oneByte_derived {t : Bytes → Bool} {N : Bytes} {D : One} (h : Derived pad (oneByte t) N D) : adv1 pad N D ≤ 0 := by
  have hz : ∀ b, adv1 pad N (.done b) ≤ 0 := fun b => by
    unfold adv1
    simp only [oneVal, sub_self, abs_zero, le_refl]
  cases h with
  | rest s A R U C hr _ hs =>
    rcases oneByte_rest hr with rfl | ⟨b, rfl⟩
    · unfold adv1
      have e : ∀ w, E (fun K : Block 32 => oneVal pad w (toBytes K) (nonceOf s) (single pad s A R U C (oneByte t))) =
          E (fun r : Block 16 => E (fun K : Block 32 => oneVal pad w (toBytes K) (nonceOf s)
            (if U.contains r then .done false else if r = s then singleEnc pad s A R U C [1] [2] (fun y => match y with
              | .ok x => .done (t x)
              | _ => .done false)
            else .done (t (toBytes r ++ pad.enc (toBytes (R r)) (nonceOf r) (if A r then [2] else [1])))))) := by
        intro w
        rw [E_comm]
        refine congrArg E (funext fun K => ?_)
        simp only [oneByte, single, oneVal, List.length_cons, List.length_nil, if_true, List.cons_ne_nil, if_false]
        refine congrArg E (funext fun r => ?_)
        by_cases h1 : U.contains r = true
        · simp only [h1, if_true]
        · simp only [h1]
          by_cases h2 : r = s
          · subst h2
            simp only [if_true, singleEnc, Bool.false_eq_true, if_false, single]
          · simp only [h2, if_false]
      rw [e, e, E_sub]
      refine abs_E_le fun r => ?_
      by_cases h1 : U.contains r = true
      · simp only [h1, if_true, oneVal, sub_self, abs_zero, le_refl]
      · by_cases h2 : r = s
        · simp only [h1, h2, if_true]
          rw [if_neg (by simpa using hs)]
          rw [oneByte_enc, sub_self, abs_zero]
        · have h3 : r ∉ U := by simpa using h1
          simp only [List.contains_eq_mem, h3, h2, decide_false, Bool.false_eq_true, if_false, oneVal, sub_self, abs_zero, le_refl]
    · exact hz b
  | @first m0 m1 c s A R U C hr _ _ _ =>
    rcases oneByte_rest hr with h | ⟨b, h⟩
    · unfold oneByte at h
      injection h with h1 h2 h3
      subst h1 h2 h3
      unfold adv1
      rw [oneByte_enc, sub_self, abs_zero]
    · cases h

/-- The hypotheses of the theorem hold with `ε = 0` for attacks that see one encryption of one byte. -/
example (t : Bytes → Bool) (junk : Nat → UInt8) : pad.Ok ∧ AtMost 1 0 (oneByte t) ∧
    ∀ N D, Derived pad (oneByte t) N D → adv1 pad N D ≤ 0 := by
  refine ⟨pad_ok, ?_, fun N D => oneByte_derived⟩
  refine .enc fun y => ?_
  cases y <;> exact .done _

end Verif.Cipher.Game
