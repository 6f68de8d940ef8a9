import Verif.Trace.PropsSym

/-!
# C108: what the symmetric functions show (statements)
-/

namespace Verif.Trace.Sym

open Verif Verif.Trace T

theorem bind_ok_eq {α β : Type} (e : List (Ev Rg)) (a : α) (f : α → M β) : ((⟨e, .ok a⟩ : M α) >>= f) = ⟨e ++ (f a).evs, (f a).res⟩ := rfl

/-! ## The length of the message -/

/-- A computation that, when it returns, has shown `t` at the end. -/
def Ends {α : Type} (t : List (Ev Rg)) (x : M α) : Prop := x.res.isOk = true → ∃ p, x.evs = p ++ t

theorem Ends.bind {α β : Type} {t : List (Ev Rg)} {x : M α} {f : α → M β} (h : ∀ a, Ends t (f a)) : Ends t (x >>= f) := by
  obtain ⟨e, r⟩ := x
  cases r with
  | ok a =>
    intro hok
    obtain ⟨p, hp⟩ := h a hok
    exact ⟨e ++ p, by rw [bind_ok_eq]; simp only; rw [hp, List.append_assoc]⟩
  | exc e => intro hok; cases hok
  | ub => intro hok; cases hok

theorem ends_hmac (H : Bytes → Bytes) (junk : Nat → UInt8) (N : Nat) (k : Bytes) (ri : Rg) (m : Bytes) (outOff outLen : Nat) :
    Ends [.wr .buf 0 (128 + m.length), .wr .tmp 0 192] (hmacMainT H junk N k ri m outOff outLen) := by
  unfold hmacMainT
  simp only
  rw [show (ifT (Mac.blockSize + m.length > Mac.digestSize) (pure (Mac.blockSize + m.length)) (pure Mac.digestSize) : M Nat) =
    ⟨[.br true], .ok (128 + m.length)⟩ from by
      have : Mac.blockSize + m.length > Mac.digestSize := by simp only [Mac.blockSize, Mac.digestSize]; omega
      unfold ifT
      rw [if_pos this, if_pos this, decide_eq_true this]; rfl]
  have hb : ∀ (bl : Nat) (x : M Bytes), Ends [.wr .buf 0 bl, .wr .tmp 0 192] (x >>= fun res => wipeT .buf bl >>= fun _ =>
      wipeT .tmp (Mac.blockSize + Mac.digestSize) >>= fun _ => pure res) := by
    intro bl x
    exact Ends.bind fun a _ => ⟨[], rfl⟩
  intro hok
  rw [bind_ok_eq] at hok ⊢
  obtain ⟨p, hp⟩ := (Ends.bind fun b => Ends.bind fun b => Ends.bind fun b => Ends.bind fun t => Ends.bind fun t => Ends.bind fun b => hb (128 + m.length) _) hok
  exact ⟨[.br true] ++ p, by simp only; rw [hp, List.append_assoc]⟩

theorem hmac_length_of_evs {H H' : Bytes → Bytes} {junk junk' : Nat → UInt8} {N : Nat} {k k' m m' : Bytes} {ri ri' : Rg} {outOff outLen outOff' : Nat}
    (hok : (Mac.hmac H junk N (some k) (some m) false outLen).isOk = true) (hok' : (Mac.hmac H' junk' N (some k') (some m') false outLen).isOk = true)
    (h : (hmacT H junk N (some k) ri (some m) false outOff outLen).evs = (hmacT H' junk' N (some k') ri' (some m') false outOff' outLen).evs) :
    m.length = m'.length := by
  have key : ∀ {H : Bytes → Bytes} {junk : Nat → UInt8} {k m : Bytes} {ri : Rg} {outOff : Nat},
      (Mac.hmac H junk N (some k) (some m) false outLen).isOk = true →
      ∃ p, (hmacT H junk N (some k) ri (some m) false outOff outLen).evs = p ++ [.wr .buf 0 (128 + m.length), .wr .tmp 0 192] := by
    intro H junk k m ri outOff hok
    rw [← hmacT_res H junk N (some k) ri (some m) false outOff outLen] at hok
    unfold hmacT at hok ⊢
    by_cases h1 : outLen > Mac.digestSize
    · rw [ifT_res, if_pos h1] at hok; cases hok
    · simp only [ifT, if_neg h1, reduceCtorEq, if_false, Option.getD_some, Bool.false_eq_true] at hok ⊢
      obtain ⟨p, hp⟩ := ends_hmac H junk N k ri m outOff outLen hok
      rw [hp]
      exact ⟨_ :: _ :: _ :: _ :: p, rfl⟩
  obtain ⟨p, hp⟩ := key (ri := ri) (outOff := outOff) hok
  obtain ⟨p', hp'⟩ := key (ri := ri') (outOff := outOff') hok'
  rw [hp, hp'] at h
  have := (List.append_inj' h rfl).2
  injection this with h1 _
  injection h1 with _ _ h2
  omega

/-! ## The path in a tree -/

/-- The child that `get_child` selects, as a number. -/
def bit (h leaf i : Nat) : Bool := leaf.testBit (h - i - 2)

theorem childT_eq (h leaf i : Nat) (h1 : i + 2 ≤ h) (h2 : h - i - 2 < 64) : childT h leaf i = ⟨[], .ok (bit h leaf i).toNat⟩ := by
  unfold childT RCPrf.getChild bit
  rw [if_neg (by omega), if_neg (by omega)]
  congr 1
  show Res.ok _ = Res.ok _
  congr 2
  rw [Nat.one_shiftLeft]
  cases hb : leaf.testBit (h - i - 2)
  · rw [Nat.and_two_pow, hb]; simp
  · rw [Nat.and_two_pow, hb]; simp

theorem tooLargeT_child (c : Bool) : tooLargeT 32 c.toNat = ⟨.br c :: if c then [.br false] else [], .ok false⟩ := by
  unfold tooLargeT
  cases c
  · rfl
  · have h : ¬ (32 ≥ (W64 - 1) / 1) := by omega
    rw [Bool.toNat_true]
    have h1 : (1 : Nat) > 0 := Nat.one_pos
    unfold ifT
    rw [if_pos h1, if_pos h1, if_neg h, if_neg h, decide_eq_false h]
    rfl

/-- The step to a child shows the child, and nothing about the key. -/
theorem sDeriveKeyT_eq (B : Bytes → Nat → Nat → UInt8) (d : Nat) (key : Bytes) (c : Bool) :
    ∃ key', sDeriveKeyT B d key c.toNat = ⟨.br c :: (sDeriveKeyT B d key c.toNat).evs.tail, .ok key'⟩ := by
  have hr := sDeriveKeyT_res B d key c.toNat
  rw [(deriveKey_child B key c).2] at hr
  have : (sDeriveKeyT B d key c.toNat).evs = .br c :: (sDeriveKeyT B d key c.toNat).evs.tail := by
    unfold sDeriveKeyT
    rw [tooLargeT_child, bind_ok_eq]
    rfl
  exact ⟨RCPrf.childKey (Prg.stream B) key c, by rw [← this, ← hr]⟩

theorem rel_sDeriveKey (B B' : Bytes → Nat → Nat → UInt8) (d : Nat) (key key' : Bytes) (off : Nat) :
    Rel SameLen (sDeriveKeyT B d key off) (sDeriveKeyT B' d key' off) := by
  unfold sDeriveKeyT
  refine Rel.bind (P := fun a b => a = b) ⟨rfl, by rw [tooLargeT_res]; exact rfl⟩ ?_
  rintro t _ rfl
  split
  · exact rel_thr _
  · exact Rel.bind (rel_tick _) fun _ _ _ => rel_prg B B' _ _ _ _ _ _ _

theorem deriveKeyT_eq (B : Bytes → Nat → Nat → UInt8) (d : Nat) (key : Bytes) (c : Bool) :
    ∃ key', deriveKeyT B (some key) c.toNat d = ⟨.br c :: (deriveKeyT B (some key) c.toNat d).evs.tail, .ok key'⟩ := by
  have hr := deriveKeyT_res B (some key) c.toNat d
  rw [(deriveKey_child B key c).1] at hr
  have : (deriveKeyT B (some key) c.toNat d).evs = .br c :: (deriveKeyT B (some key) c.toNat d).evs.tail := by
    unfold deriveKeyT
    rw [tooLargeT_child, bind_ok_eq]
    rfl
  exact ⟨RCPrf.childKey (Prg.stream B) key c, by rw [← this, ← hr]⟩

theorem rel_deriveKey (B B' : Bytes → Nat → Nat → UInt8) (d : Nat) (key key' : Bytes) (off : Nat) :
    Rel SameLen (deriveKeyT B (some key) off d) (deriveKeyT B' (some key') off d) := by
  unfold deriveKeyT
  refine Rel.bind (P := fun a b => a = b) ⟨rfl, by rw [tooLargeT_res]; exact rfl⟩ ?_
  rintro t _ rfl
  split
  · exact rel_thr _
  · exact rel_derive B B' (by simp) _ _ _ _

/-- The traces of two walks (continued by anything) agree exactly when the walks agree. -/
theorem path_iff (B B' : Bytes → Nat → Nat → UInt8) (h leaf leaf' : Nat) (hh : h ≤ 65) (s : Nat) :
    ∀ (i : Nat) (key key' : Bytes), i + s + 2 ≤ h → ∃ e e' k1 k1', pathT B h leaf s i key = ⟨e, .ok k1⟩ ∧ pathT B' h leaf' s i key' = ⟨e', .ok k1'⟩ ∧
      ∀ r r', e ++ r = e' ++ r' ↔ (∀ j, i ≤ j → j < i + s → bit h leaf j = bit h leaf' j) ∧ r = r' := by
  induction s with
  | zero =>
    intro i key key' _
    refine ⟨[.br false], [.br false], key, key', rfl, rfl, fun r r' => ?_⟩
    constructor
    · intro h
      injection h with _ h
      exact ⟨fun j hj hj' => by omega, h⟩
    · rintro ⟨_, rfl⟩; rfl
  | succ s ih =>
    intro i key key' hi
    obtain ⟨k1, hk1⟩ := sDeriveKeyT_eq B i key (bit h leaf i)
    obtain ⟨k1', hk1'⟩ := sDeriveKeyT_eq B' i key' (bit h leaf' i)
    obtain ⟨e, e', k2, k2', he, he', hiff⟩ := ih (i + 1) k1 k1' (by omega)
    refine ⟨.br true :: .br (bit h leaf i) :: ((sDeriveKeyT B i key (bit h leaf i).toNat).evs.tail ++ e),
      .br true :: .br (bit h leaf' i) :: ((sDeriveKeyT B' i key' (bit h leaf' i).toNat).evs.tail ++ e'), k2, k2', ?_, ?_, fun r r' => ?_⟩
    · rw [pathT, childT_eq h leaf i (by omega) (by omega), bind_ok_eq, hk1, bind_ok_eq, he]; rfl
    · rw [pathT, childT_eq h leaf' i (by omega) (by omega), bind_ok_eq, hk1', bind_ok_eq, he']; rfl
    · constructor
      · intro heq
        simp only [List.cons_append, List.append_assoc, List.cons.injEq, Ev.br.injEq, true_and] at heq
        obtain ⟨hb, heq⟩ := heq
        have hs := (rel_sDeriveKey B B' i key key' (bit h leaf i).toNat).evs
        rw [← hb, ← hs] at heq
        obtain ⟨hj, hr⟩ := (hiff r r').1 (List.append_cancel_left heq)
        refine ⟨fun j h1 h2 => ?_, hr⟩
        rcases Nat.lt_or_ge i j with h3 | h3
        · exact hj j h3 (by omega)
        · rw [show j = i by omega]; exact hb
      · rintro ⟨hj, rfl⟩
        have hb := hj i (Nat.le_refl i) (by omega)
        have hs := (rel_sDeriveKey B B' i key key' (bit h leaf i).toNat).evs
        have := (hiff r r).2 ⟨fun j h1 h2 => hj j (by omega) (by omega), rfl⟩
        rw [← hb, ← hs]
        simp only [List.cons_append, List.append_assoc]
        rw [this]

/-- The derivation of the leaf shows whether the offset is a multiple of the block length. -/
theorem prgT_off (B : Bytes → Nat → Nat → UInt8) (rk : Rg) (key : Bytes) (off len : Nat) (ro : Rg) (hl : len ≠ 0) :
    ∃ t, (prgT B rk key off len ro false).evs = .br false :: .br false :: .wr ro 0 len :: .br (decide (off % 64 = 0)) :: t := by
  refine ⟨if off % 64 = 0 then (chachaT B rk key (off / 64) ro 0 (List.replicate len 0)).evs else (prgSplitT B rk key off len ro).evs, ?_⟩
  unfold prgT
  simp only [ifT, hl, if_false, Bool.false_eq_true, decide_false]
  rfl

theorem prgT_evs_iff (B B' : Bytes → Nat → Nat → UInt8) (rk : Rg) (key key' : Bytes) (c c' : Bool) (n : Nat) (ro : Rg) (hn : 0 < n) :
    (prgT B rk key (c.toNat * n) n ro false).evs = (prgT B' rk key' (c'.toNat * n) n ro false).evs ↔ (n % 64 ≠ 0 → c = c') := by
  by_cases h64 : n % 64 = 0
  · refine ⟨fun _ h => absurd h64 h, fun _ => ?_⟩
    have h0 : ∀ c : Bool, c.toNat * n % 64 = 0 := by
      intro c; cases c
      · rw [Bool.toNat_false]; omega
      · rw [Bool.toNat_true]; omega
    unfold prgT
    refine Rel.evs (P := SameLen) (Rel.ifT Iff.rfl (fun _ => rel_thr _) fun _ => Rel.ifT Iff.rfl (fun _ => Rel.pure rfl) fun _ =>
      Rel.bind (rel_wipe _ _) fun _ _ _ => Rel.ifT (by rw [h0, h0]) (fun _ => rel_chacha B B' rk key key' _ _ ro 0 rfl) fun h => absurd (h0 c) h)
  · constructor
    · intro he _
      obtain ⟨t, ht⟩ := prgT_off B rk key (c.toNat * n) n ro (by omega)
      obtain ⟨t', ht'⟩ := prgT_off B' rk key' (c'.toNat * n) n ro (by omega)
      rw [ht, ht'] at he
      injection he with _ he
      injection he with _ he
      injection he with _ he
      injection he with he _
      injection he with he
      cases c <;> cases c' <;> simp_all
    · intro h
      rw [h h64]
      exact (rel_prg B B' rk key key' _ _ ro false).evs

theorem leaf_iff (B B' : Bytes → Nat → Nat → UInt8) (n h : Nat) (k k' : Bytes) (d leaf leaf' : Nat) (hn : 0 < n) (hd : d + 2 ≤ h) (hh : h ≤ 65) :
    (deriveLeafT B n h k d leaf).evs = (deriveLeafT B' n h k' d leaf').evs ↔
      (∀ j, d ≤ j → j + 2 < h → bit h leaf j = bit h leaf' j) ∧ (n % 64 ≠ 0 → bit h leaf (h - 2) = bit h leaf' (h - 2)) := by
  unfold deriveLeafT
  rw [if_neg (by omega), if_neg (by omega), if_neg (by omega), if_neg (by omega)]
  by_cases h2 : h = d + 2
  · have hx : ∀ (B : Bytes → Nat → Nat → UInt8) (k : Bytes) (leaf : Nat) (y : M Bytes),
        (ifT (h = d + 2) (childT h leaf d >>= fun c => deriveT B (some k) (c * n) n .out false) y).evs =
        .br true :: .br false :: .br false :: (prgT B .key k ((bit h leaf (h - 2)).toNat * n) n .out false).evs := by
      intro B k leaf y
      rw [childT_eq h leaf d (by omega) (by omega), bind_ok_eq, show h - 2 = d by omega]
      unfold ifT
      rw [if_pos h2, decide_eq_true h2]
      unfold deriveT ifT
      rw [if_neg (by omega), decide_eq_false (by omega : ¬ n = 0), if_neg (by simp)]
      rfl
    rw [hx, hx]
    simp only [List.cons.injEq, true_and]
    rw [prgT_evs_iff B B' .key k k' _ _ n .out hn]
    exact ⟨fun h => ⟨fun j h1 h2 => by omega, h⟩, fun h => h.2⟩
  · obtain ⟨k1, hk1⟩ := deriveKeyT_eq B (d + 1) k (bit h leaf d)
    obtain ⟨k1', hk1'⟩ := deriveKeyT_eq B' (d + 1) k' (bit h leaf' d)
    obtain ⟨e, e', k2, k2', he, he', hiff⟩ := path_iff B B' h leaf leaf' hh (h - 2 - (d + 1)) (d + 1) k1 k1' (by omega)
    have hx : ∀ (B : Bytes → Nat → Nat → UInt8) (k k1 k2 : Bytes) (leaf : Nat) (e : List (Ev Rg)) (y : M Bytes),
        deriveKeyT B (some k) (bit h leaf d).toNat (d + 1) = ⟨.br (bit h leaf d) :: (deriveKeyT B (some k) (bit h leaf d).toNat (d + 1)).evs.tail, .ok k1⟩ →
        pathT B h leaf (h - 2 - (d + 1)) (d + 1) k1 = ⟨e, .ok k2⟩ →
        (ifT (h = d + 2) y (childT h leaf d >>= fun c => deriveKeyT B (some k) c (d + 1) >>= fun key => pathT B h leaf (h - 2 - (d + 1)) (d + 1) key >>= fun key =>
          childT h leaf (h - 2) >>= fun c => sDeriveT B (h - 2) key (c * n) n .out)).evs =
        .br false :: .br (bit h leaf d) :: ((deriveKeyT B (some k) (bit h leaf d).toNat (d + 1)).evs.tail ++ (e ++
          (.br false :: (prgT B (.node (h - 2)) k2 ((bit h leaf (h - 2)).toNat * n) n .out false).evs))) := by
      intro B k k1 k2 leaf e y hk1 he
      rw [childT_eq h leaf d (by omega) (by omega), bind_ok_eq, hk1, bind_ok_eq, he, bind_ok_eq, childT_eq h leaf (h - 2) (by omega) (by omega), bind_ok_eq]
      unfold ifT
      rw [if_neg h2, decide_eq_false h2]
      rfl
    rw [hx B k k1 k2 leaf e _ hk1 he, hx B' k' k1' k2' leaf' e' _ hk1' he']
    have hs := (rel_deriveKey B B' (d + 1) k k' (bit h leaf d).toNat).evs
    constructor
    · intro heq
      injection heq with _ heq
      injection heq with hb heq
      injection hb with hb
      rw [← hb, ← hs] at heq
      obtain ⟨hj, hr⟩ := (hiff _ _).1 (List.append_cancel_left heq)
      injection hr with _ hr
      refine ⟨fun j h1 h2 => ?_, (prgT_evs_iff B B' _ k2 k2' _ _ n .out hn).1 hr⟩
      rcases Nat.lt_or_ge d j with h3 | h3
      · exact hj j h3 (by omega)
      · rw [show j = d by omega]; exact hb
    · rintro ⟨hj, hr⟩
      have hb := hj d (Nat.le_refl d) (by omega)
      rw [← hb, ← hs, (hiff _ _).2 ⟨fun j h1 h2 => hj j (by omega) (by omega), rfl⟩, (prgT_evs_iff B B' _ k2 k2' _ _ n .out hn).2 hr]

/-- All bits but the last. -/
theorem div_two_iff (h leaf leaf' : Nat) (hh : 2 ≤ h) (hl : leaf < 2 ^ (h - 1)) (hl' : leaf' < 2 ^ (h - 1)) :
    (∀ j, 0 ≤ j → j + 2 < h → bit h leaf j = bit h leaf' j) ↔ leaf / 2 = leaf' / 2 := by
  unfold bit
  constructor
  · intro hj
    apply Nat.eq_of_testBit_eq
    intro i
    rw [Nat.testBit_div_two, Nat.testBit_div_two]
    by_cases hi : i + 1 < h - 1
    · have := hj (h - 2 - (i + 1)) (Nat.zero_le _) (by omega)
      rwa [show h - (h - 2 - (i + 1)) - 2 = i + 1 by omega] at this
    · have hp : 2 ^ (h - 1) ≤ 2 ^ (i + 1) := Nat.pow_le_pow_right (by omega) (by omega)
      rw [Nat.testBit_lt_two_pow (by omega), Nat.testBit_lt_two_pow (by omega)]
  · intro he j _ hj
    have := congrArg (fun x => Nat.testBit x (h - j - 2 - 1)) he
    simp only [Nat.testBit_div_two] at this
    rwa [show h - j - 2 - 1 + 1 = h - j - 2 by omega] at this

theorem bit_last (h leaf : Nat) (hh : 2 ≤ h) : bit h leaf (h - 2) = decide (leaf % 2 = 1) := by
  unfold bit
  rw [show h - (h - 2) - 2 = 0 by omega, Nat.testBit_zero]

/-! ## Decryption -/

theorem decryptT_eq (P : Cipher.Prims) (k inp out : Bytes) (len : Nat) (h32 : 32 ≤ len) (hi : len ≤ inp.length) :
    ∃ r : Option Bytes, r = P.dec (P.kdf k (inp.take 16)) (inp.take 12) ((inp.drop 16).take (len - 16)) ∧
      (decryptT P (some k) inp len out).evs = [.br false, .br false, .rd .key 0 32, .rd .inp 0 16, .wr .tmp 0 32, .rd .inp 16 (len - 16), .rd .inp 0 12,
        .rd .tmp 0 32] ++ (match r with
          | none => [.wr .out 0 (len - 32), .wr .tmp 0 32, .br true, .wr .out 0 0]
          | some m => .wr .out 0 m.length :: if m.length ≤ out.length then [.wr .tmp 0 32, .br false] else []) ∧
      ((decryptT P (some k) inp len out).res.isOk = true ↔ ∃ m, r = some m ∧ m.length ≤ out.length) := by
  refine ⟨_, rfl, ?_⟩
  have hs : ∀ a b, a + b ≤ inp.length → Cipher.slice inp a b = .ok ((inp.drop a).take b) := by
    intro a b hab
    unfold Cipher.slice
    rw [if_neg (by omega)]
  unfold decryptT
  have h0 : ¬ len < Cipher.ciphertextLength 0 := by simp only [Cipher.ciphertextLength]; omega
  unfold ifT
  rw [if_neg h0, if_neg h0, decide_eq_false h0, if_neg (by simp), if_neg (by simp), decide_eq_false (by simp)]
  simp only [Option.getD_some, kdfT, sliceT]
  rw [hs 0 _ (by simp only [Cipher.nonceSize]; omega), hs _ _ (by simp only [Cipher.nonceSize]; omega), hs 0 12 (by omega)]
  simp only [bind_ok_eq, Cipher.nonceSize, List.drop_zero]
  cases P.dec (P.kdf k (inp.take 16)) (inp.take 12) ((inp.drop 16).take (len - 16)) with
  | none => exact ⟨rfl, by constructor <;> intro h; cases h; obtain ⟨m, h, _⟩ := h; cases h⟩
  | some m =>
    simp only [Mac.putAt]
    by_cases hm : m.length ≤ out.length
    · rw [if_neg (by omega), if_pos hm]
      exact ⟨rfl, fun _ => ⟨m, rfl, hm⟩, fun _ => rfl⟩
    · rw [if_pos (by omega), if_neg hm]
      refine ⟨rfl, ⟨fun h => (by cases h), ?_⟩⟩
      rintro ⟨m', h, h'⟩
      injection h with h
      exact absurd h' (h ▸ hm)

/-! ## C108 -/

/-- **C108**: the functions with their traces compute what the functions of the model without traces compute, for all arguments. -/
theorem c108_refines :
    (∀ H junk N key ri inp outNull outOff outLen, (hmacT H junk N key ri inp outNull outOff outLen).res = Mac.hmac H junk N key inp outNull outLen) ∧
    (∀ H junk key nb fuel inp, (prfT H junk key nb fuel inp).map T.res = Mac.prf H junk key nb fuel inp) ∧
    (∀ B key offset len ro outNull, (deriveT B key offset len ro outNull).res = Prg.derive B key offset len outNull) ∧
    (∀ B n h k d leaf, n < 65536 → (deriveLeafT B n h k d leaf).res = RCPrf.deriveLeaf (Prg.stream B) n h k d leaf) ∧
    (∀ P key salt inp len out, (encryptT P key salt inp len out).res = Cipher.encryptBuf P key salt inp len out) ∧
    (∀ P key inp len out, (decryptT P key inp len out).res = Cipher.decryptBuf P key inp len out) :=
  ⟨hmacT_res, prfT_res, deriveT_res, fun B n h k d leaf hn => deriveLeafT_res B n h k d leaf hn, encryptT_res, decryptT_res⟩

theorem hmac_isOk {H : Bytes → Bytes} (hH : Hash64 H) (junk : Nat → UInt8) {N : Nat} (hN : N ≤ 128) {k : Bytes} (hk : k.length = N) (m : Bytes) {outLen : Nat}
    (ho : outLen ≤ 64) : (Mac.hmac H junk N (some k) (some m) false outLen).isOk = true := by
  rw [Mac.hmac_eq hH junk N k m hk hN outLen ho]; rfl

/-- **C108**: HMAC with a key of `N ≤ 128` bytes shows exactly the length of the message: nothing about the key, the message, the result, or what the buffers held before. -/
theorem c108_hmac {H : Bytes → Bytes} (hH : Hash64 H) (junk junk' : Nat → UInt8) {N : Nat} (hN : N ≤ 128) {k k' : Bytes} (hk : k.length = N)
    (hk' : k'.length = N) (m m' : Bytes) (outOff : Nat) {outLen : Nat} (ho : outLen ≤ 64) :
    (hmacT H junk N (some k) .inp (some m) false outOff outLen).evs = (hmacT H junk' N (some k') .inp (some m') false outOff outLen).evs ↔
      m.length = m'.length :=
  ⟨hmac_length_of_evs (hmac_isOk hH junk hN hk m ho) (hmac_isOk hH junk' hN hk' m' ho),
    fun h => (rel_hmac hH hH junk junk' N .inp (show SameOpt (some k) (some k') from hk.trans hk'.symm) (show SameOpt (some m) (some m') from h) false outOff
      outLen).evs⟩

/-- Two keys and two messages of three bytes; a fourth byte is seen. -/
example : (hmacT Mac.toyH (fun _ => 7) 32 (some Mac.toyKey32) .inp (some [1, 2, 3]) false 0 12).evs =
      (hmacT Mac.toyH (fun i => UInt8.ofNat i) 32 (some (List.replicate 32 9)) .inp (some [200, 0, 7]) false 0 12).evs ∧
    (hmacT Mac.toyH (fun _ => 7) 32 (some Mac.toyKey32) .inp (some [1, 2, 3]) false 0 12).evs ≠
      (hmacT Mac.toyH (fun _ => 7) 32 (some Mac.toyKey32) .inp (some [1, 2, 3, 4]) false 0 12).evs :=
  ⟨(c108_hmac Mac.toyH_length _ _ (by decide) (by decide) (by decide) _ _ 0 (by decide)).2 rfl,
    fun h => absurd ((c108_hmac Mac.toyH_length _ _ (by decide) (by decide) (by decide) _ _ 0 (by decide)).1 h) (by decide)⟩

/-- **C108**: for every output length and any number of iterations, `Prf::prf` shows the same for any two keys and any two messages of the same length. -/
theorem c108_prf {H : Bytes → Bytes} (hH : Hash64 H) (junk junk' : Nat → UInt8) {k k' : Bytes} (hk : k.length = k'.length) {m m' : Bytes}
    (hm : m.length = m'.length) (nb fuel : Nat) :
    (prfT H junk (some k) nb fuel (some m)).map T.evs = (prfT H junk' (some k') nb fuel (some m')).map T.evs :=
  prfT_evs hH hH junk junk' (show SameOpt (some k) (some k') from hk) (show SameOpt (some m) (some m') from hm) nb fuel

/-- 200 bytes of output, four iterations. -/
example : (prfT Mac.toyH (fun _ => 7) (some Mac.toyKey32) 200 9 (some [1, 2, 3])).map T.evs =
    (prfT Mac.toyH (fun _ => 0) (some (List.replicate 32 9)) 200 9 (some [200, 0, 7])).map T.evs :=
  c108_prf (k := Mac.toyKey32) (k' := List.replicate 32 9) (m := [1, 2, 3]) (m' := [200, 0, 7]) Mac.toyH_length (fun _ => 7) (fun _ => 0) (by decide)
    (by decide) 200 9

/-- **C108**: the derivation of a stream shows the same for any two keys. -/
theorem c108_prg (B : Bytes → Nat → Nat → UInt8) (k k' : Bytes) (offset len : Nat) (ro : Rg) (outNull : Bool) :
    (deriveT B (some k) offset len ro outNull).evs = (deriveT B (some k') offset len ro outNull).evs :=
  (rel_derive B B (by simp) offset len ro outNull).evs

/-- 100 bytes from the middle of a block. -/
example (B : Bytes → Nat → Nat → UInt8) : (deriveT B (some [1]) 37 100 .out false).evs = (deriveT B (some [2]) 37 100 .out false).evs :=
  c108_prg B [1] [2] 37 100 .out false

/-- **C108**: the evaluation of a tree of height at most 65 at a leaf shows nothing about the key and the value, but exactly the leaf — except its last bit
when the values are multiples of 64 bytes long. -/
theorem c108_tree (B : Bytes → Nat → Nat → UInt8) {n h : Nat} (hn : 0 < n) (hh : 2 ≤ h) (hh' : h ≤ 65) (k k' : Bytes) {leaf leaf' : Nat}
    (hl : leaf < 2 ^ (h - 1)) (hl' : leaf' < 2 ^ (h - 1)) :
    (deriveLeafT B n h k 0 leaf).evs = (deriveLeafT B n h k' 0 leaf').evs ↔ leaf / 2 = leaf' / 2 ∧ (n % 64 ≠ 0 → leaf = leaf') := by
  rw [leaf_iff B B n h k k' 0 leaf leaf' hn (by omega) hh', div_two_iff h leaf leaf' hh hl hl', bit_last h leaf hh, bit_last h leaf' hh]
  constructor
  · rintro ⟨h1, h2⟩
    refine ⟨h1, fun h3 => ?_⟩
    have := h2 h3
    rw [decide_eq_decide] at this
    omega
  · rintro ⟨h1, h2⟩
    exact ⟨h1, fun h3 => by rw [h2 h3]⟩

/-- A tree of height 8 with values of 16 bytes: the leaves 100 and 101 look different; with values of 64 bytes they look alike, 100 and 102 do not. -/
example (B : Bytes → Nat → Nat → UInt8) (k k' : Bytes) :
    (deriveLeafT B 16 8 k 0 100).evs ≠ (deriveLeafT B 16 8 k' 0 101).evs ∧ (deriveLeafT B 64 8 k 0 100).evs = (deriveLeafT B 64 8 k' 0 101).evs ∧
    (deriveLeafT B 64 8 k 0 100).evs ≠ (deriveLeafT B 64 8 k' 0 102).evs :=
  ⟨fun h => absurd (((c108_tree B (by decide) (by decide) (by decide) k k' (by decide) (by decide)).1 h).2 (by decide)) (by decide),
    (c108_tree B (by decide) (by decide) (by decide) k k' (by decide) (by decide)).2 ⟨by decide, fun h => absurd rfl h⟩,
    fun h => absurd ((c108_tree B (by decide) (by decide) (by decide) k k' (by decide) (by decide)).1 h).1 (by decide)⟩

/-- **C108**: from a node of a constrained key, at depth `d`: the same for any two keys of the node, and what is shown of the leaf is the path below the node. -/
theorem c108_subtree (B : Bytes → Nat → Nat → UInt8) {n h d : Nat} (hn : 0 < n) (hd : d + 2 ≤ h) (hh : h ≤ 65) (k k' : Bytes) (leaf leaf' : Nat) :
    (deriveLeafT B n h k d leaf).evs = (deriveLeafT B n h k' d leaf').evs ↔
      (∀ j, d ≤ j → j + 2 < h → leaf.testBit (h - j - 2) = leaf'.testBit (h - j - 2)) ∧ (n % 64 ≠ 0 → leaf.testBit 0 = leaf'.testBit 0) := by
  rw [leaf_iff B B n h k k' d leaf leaf' hn hd hh]
  unfold bit
  rw [show h - (h - 2) - 2 = 0 by omega]

/-- Below a node at depth 3 the first bits of the leaf are not shown. -/
example (B : Bytes → Nat → Nat → UInt8) (k k' : Bytes) : (deriveLeafT B 16 8 k 3 100).evs = (deriveLeafT B 16 8 k' 3 20).evs :=
  (c108_subtree B (by decide) (by decide) (by decide) k k' 100 20).2 ⟨fun j h1 h2 => by
    have : j = 3 ∨ j = 4 ∨ j = 5 := by omega
    rcases this with rfl | rfl | rfl <;> decide, fun _ => by decide⟩

/-- **C108**: encryption shows the same for any two keys, nonces, and messages of the same length. -/
theorem c108_encrypt {P : Cipher.Prims} (hP : Enc16 P) (k k' : Bytes) {salt salt' inp inp' out out' : Bytes} (hs : salt.length = salt'.length)
    (hi : inp.length = inp'.length) (ho : out.length = out'.length) (len : Nat) :
    (encryptT P (some k) salt inp len out).evs = (encryptT P (some k') salt' inp' len out').evs :=
  (rel_encrypt hP hP (by simp) hs hi ho len).evs

theorem toy_enc16 : Enc16 Cipher.toy := by intro k n m; simp [Cipher.toy, Cipher.toyXor, Cipher.toyTag]

example : (encryptT Cipher.toy (some [1]) (List.replicate 16 1) [1, 2, 3] 3 (List.replicate 35 0)).evs =
    (encryptT Cipher.toy (some [2]) (List.replicate 16 5) [7, 8, 9] 3 (List.replicate 35 9)).evs :=
  c108_encrypt toy_enc16 _ _ rfl rfl rfl 3

/-- **C108**: decryption of `len` bytes shows exactly whether the text was accepted: nothing about the key, the text and the message. -/
theorem c108_decrypt {P : Cipher.Prims} (hP : Dec16 P) (k k' : Bytes) {inp inp' out out' : Bytes} {len : Nat} (h32 : 32 ≤ len) (hi : len ≤ inp.length)
    (hi' : len ≤ inp'.length) (ho : len ≤ out.length + 32) (ho' : len ≤ out'.length + 32) :
    (decryptT P (some k) inp len out).evs = (decryptT P (some k') inp' len out').evs ↔
      (Cipher.decryptBuf P (some k) inp len out).isOk = (Cipher.decryptBuf P (some k') inp' len out').isOk := by
  have key : ∀ (k inp out : Bytes), len ≤ inp.length → len ≤ out.length + 32 →
      (decryptT P (some k) inp len out).evs = [.br false, .br false, .rd .key 0 32, .rd .inp 0 16, .wr .tmp 0 32, .rd .inp 16 (len - 16), .rd .inp 0 12,
        .rd .tmp 0 32] ++ (if (decryptT P (some k) inp len out).res.isOk then [.wr .out 0 (len - 32), .wr .tmp 0 32, .br false]
          else [.wr .out 0 (len - 32), .wr .tmp 0 32, .br true, .wr .out 0 0]) := by
    intro k inp out hi ho
    obtain ⟨r, hr, he, hok⟩ := decryptT_eq P k inp out len h32 hi
    rw [he]
    cases r with
    | none =>
      rw [if_neg (fun h => by obtain ⟨m, h, _⟩ := hok.1 h; cases h)]
    | some m =>
      have hm := hP _ _ _ _ hr.symm
      have hl : m.length = len - 32 := by
        rw [List.length_take, List.length_drop] at hm
        omega
      rw [if_pos (hok.2 ⟨m, rfl, by omega⟩)]
      simp only
      rw [if_pos (by omega), hl]
  rw [← decryptT_res, ← decryptT_res, key k inp out hi ho, key k' inp' out' hi' ho']
  cases (decryptT P (some k) inp len out).res.isOk <;> cases (decryptT P (some k') inp' len out').res.isOk <;> simp

theorem toy_dec16 : Dec16 Cipher.toy := by
  intro k n c m h
  simp only [Cipher.toy] at h
  split at h
  · rename_i hc
    injection h with h
    rw [← h]
    simp only [Cipher.toyXor, List.length_map, List.length_take]
    omega
  · cases h

/-- Two refused texts. -/
example : (decryptT Cipher.toy (some [1]) (List.replicate 40 1) 40 (List.replicate 8 0)).evs =
    (decryptT Cipher.toy (some [2]) (List.replicate 40 2) 40 (List.replicate 8 3)).evs :=
  (c108_decrypt toy_dec16 [1] [2] (by decide) (by decide) (by decide) (by decide) (by decide)).2 (by decide +kernel)

end Verif.Trace.Sym
