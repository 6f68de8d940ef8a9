import Verif.Io.PemExact

/-!
# Every accepted text has a normal form
-/

namespace Verif.Io.Normal

open Verif Verif.Tdp Verif.Io.Der Verif.Io.PemExact

/-- What is known of a key that was imported. -/
theorem private_facts {t : Bytes} (hlen : t.length < 2 ^ 62) {k : Rsa} (h : importPrivate t = .ok k) :
    ∃ s, k.priv = some s ∧ k.len = mpiSize k.N ∧ k.blind = none ∧ checkPriv k = true ∧ s.D < 256 ^ 80000 := by
  obtain ⟨_, ht, rfl, -⟩ := c121_private t hlen k h
  have dbound : ∀ {s : Priv} {e : Bytes}, PrivateKey k s e → s.D < 256 ^ 80000 := by
    rintro s e ⟨v, n, x, d, p, q, dp, dq, qp, -, -, -, ⟨c, -, -, hd⟩, -⟩
    exact hd
  cases ht with
  | pkcs1 buf _ hk =>
    obtain ⟨s, e, rest, -, hp, h1, h2, h3, h4⟩ := (c120_private buf k).1 hk
    exact ⟨s, h1, h2, h3, h4, dbound hp⟩
  | pkcs8 buf _ hk =>
    obtain ⟨s, e, rest, -, ⟨v, alg, key, tail, oct, attr, -, -, hp, -⟩, h1, h2, h3, h4⟩ := (c120_pkcs8 buf k).1 hk
    exact ⟨s, h1, h2, h3, h4, dbound hp⟩
  | der hk =>
    obtain ⟨s, e, rest, -, hp, h1, h2, h3, h4⟩ := (c120_der _ k).1 hk
    refine ⟨s, h1, h2, h3, h4, ?_⟩
    rcases hp with hp | ⟨v, alg, key, tail, oct, attr, -, -, hp, -⟩
    · exact dbound hp
    · exact dbound hp

/-- **C122**: whatever text a private key was imported from, exporting it gives one text that depends on the numbers of the key only, or throws; importing this text
gives the same key. Exporting does not throw for keys of the size that the library generates. -/
theorem c122_private (t : Bytes) (hlen : t.length < 2 ^ 62) (k : Rsa) (h : importPrivate t = .ok k) :
    ∃ s, k.priv = some s ∧ importPrivate (privText k.N k.E s) = .ok k ∧
      (privateKey k = .ok (privText k.N k.E s) ∨ privateKey k = .exc .runtimeError) ∧
      (k.N < 256 ^ 256 → s.D < 256 ^ 256 → privateKey k = .ok (privText k.N k.E s)) := by
  obtain ⟨s, hs, hl, hb, hc, hD⟩ := private_facts hlen h
  have hk : { k with blind := none } = k := by cases k; cases hb; rfl
  have he := c42_export_private hs hc hD
  refine ⟨s, hs, ?_, ?_, fun hN hD' => ?_⟩
  · rw [(c42_import_private hs hc hl hD).1, hk]
  · rw [he]
    split
    · exact Or.inl rfl
    · exact Or.inr rfl
  · obtain ⟨text, h1, -⟩ := c42_private_2048 hs hc hl hN hD'
    rw [he] at h1 ⊢
    split at h1
    · rename_i hf
      rw [if_pos hf]
    · cases h1

/-- **C122**: exporting and importing again does not change the key, and two imported keys are the same exactly if their exported texts are. -/
theorem c122_normal (t u : Bytes) (ht : t.length < 2 ^ 62) (hu : u.length < 2 ^ 62) (k l : Rsa) (hk : importPrivate t = .ok k) (hl : importPrivate u = .ok l)
    (x y : Bytes) (hx : privateKey k = .ok x) (hy : privateKey l = .ok y) : importPrivate x = .ok k ∧ (x = y ↔ k = l) := by
  obtain ⟨s, hs, h1, h2, -⟩ := c122_private t ht k hk
  obtain ⟨v, hv, g1, g2, -⟩ := c122_private u hu l hl
  have ex : x = privText k.N k.E s := by
    rcases h2 with h2 | h2 <;> rw [h2] at hx <;> cases hx
    rfl
  have ey : y = privText l.N l.E v := by
    rcases g2 with g2 | g2 <;> rw [g2] at hy <;> cases hy
    rfl
  refine ⟨by rw [ex]; exact h1, fun e => ?_, fun e => ?_⟩
  · rw [← ex, e, ey, g1] at h1
    injection h1 with h1
    exact h1.symm
  · subst e
    rw [hx] at hy
    injection hy

/-- **C122**: public keys; exporting never throws. -/
theorem c122_public (t u : Bytes) (ht : t.length < 2 ^ 62) (hu : u.length < 2 ^ 62) (k l : Rsa) (hk : importPublic t = .ok k) (hl : importPublic u = .ok l) :
    ∃ x y, publicKey k = .ok x ∧ publicKey l = .ok y ∧ importPublic x = .ok k ∧ importPublic y = .ok l ∧ (x = y ↔ k = l) := by
  have one : ∀ {t : Bytes} {k : Rsa}, t.length < 2 ^ 62 → importPublic t = .ok k →
      publicKey k = .ok (pubText k.N k.E) ∧ importPublic (pubText k.N k.E) = .ok k := by
    intro t k ht hk
    obtain ⟨_, hp, rfl, hc⟩ := (c121_public t ht k).1 hk
    have hf : k.priv = none ∧ k.len = mpiSize k.N ∧ k.blind = none := by
      rcases hp with ⟨buf, -, hp⟩ | hp
      · obtain ⟨e, rest, -, -, h1, h2, h3, -⟩ := (c120_subject _ k).1 hp
        exact ⟨h1, h2, h3⟩
      · obtain ⟨e, rest, -, -, h1, h2, h3, -⟩ := (c120_subject _ k).1 hp
        exact ⟨h1, h2, h3⟩
    obtain ⟨h1, h2⟩ := c42_public hc
    refine ⟨h1, h2.trans ?_⟩
    obtain ⟨f1, f2, f3⟩ := hf
    cases k
    simp only at f1 f2 f3 ⊢
    rw [f1, f2, f3]
  obtain ⟨h1, h2⟩ := one ht hk
  obtain ⟨g1, g2⟩ := one hu hl
  refine ⟨_, _, h1, g1, h2, g2, fun e => ?_, fun e => by rw [e]⟩
  rw [e, g2] at h2
  injection h2 with h2
  exact h2.symm

/-- **C122**: the public key of an imported private key can always be exported, and is imported as the key with the same modulus and exponent. -/
theorem c122_part (t : Bytes) (hlen : t.length < 2 ^ 62) (k : Rsa) (h : importPrivate t = .ok k) :
    ∃ x, publicKey k = .ok x ∧ importPublic x = .ok { k with priv := none } := by
  obtain ⟨s, hs, hl, hb, hc, -⟩ := private_facts hlen h
  have h0 := (checkPriv_facts hs hc).1
  obtain ⟨h1, h2⟩ := c42_public h0
  refine ⟨_, h1, h2.trans ?_⟩
  cases k
  simp only at hl hb ⊢
  rw [hl, hb]

/-! ## Cases -/

/-- The example key, in its own text. -/
example : importPrivate (privText exKey.N exKey.E exPriv) = .ok exKey ∧ privateKey exKey = .ok (privText exKey.N exKey.E exPriv) := by
  have h := (c42_import_private (k := exKey) (s := exPriv) rfl exKey_check (by decide +kernel)
    (by decide +kernel)).1
  obtain ⟨s, hs, -, -, h2⟩ := c122_private _ (by decide +kernel) _ h
  cases hs
  exact ⟨h, h2 (by decide +kernel) (by decide +kernel)⟩

/-- Its public key: imported, exported, and the same as the part of the private key. -/
example : ∃ x, publicKey exKey = .ok x ∧ importPublic x = .ok { exKey with priv := none } ∧
    ∃ y, publicKey { exKey with priv := none } = .ok y ∧ importPublic y = .ok { exKey with priv := none } := by
  have h : importPrivate (privText exKey.N exKey.E exPriv) = .ok exKey :=
    (c42_import_private (k := exKey) (s := exPriv) rfl exKey_check (by decide +kernel) (by decide +kernel)).1
  obtain ⟨x, h1, h2⟩ := c122_part _ (by decide +kernel) _ h
  have hx : x = pubText exKey.N exKey.E := by
    rw [(c42_public (checkPriv_facts rfl exKey_check).1).1] at h1
    injection h1 with h1
    exact h1.symm
  have hl : x.length < 2 ^ 62 := by
    rw [hx]
    decide +kernel
  obtain ⟨y, -, g1, -, g2, -⟩ := c122_public x x hl hl _ _ h2 h2
  exact ⟨x, h1, h2, y, g1, g2⟩

end Verif.Io.Normal
