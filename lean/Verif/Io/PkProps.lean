import Verif.Io.Asn1Props
import Verif.Io.PemProps
import Verif.Tdp.Props
import Verif.Utils.Props

/-!
# Import and export of RSA keys: theorems (C42)

The specification of the encodings is RFC 8017 (`RSAPrivateKey`, `RSAPublicKey`), RFC 5280 (`SubjectPublicKeyInfo`), RFC 7468 (PEM).
-/

namespace Verif.Io

open Verif Verif.Tdp

namespace Spec

/-- Base-128 digits of an object identifier component: all but the last with the top bit. -/
def arc (n : Nat) : Nat → Bytes
  | 0 => []
  | fuel + 1 => (if n / 128 = 0 then [] else (arc (n / 128) fuel).map (· ||| 0x80)) ++ [UInt8.ofNat (n % 128)]

/-- The encoding of an object identifier. -/
def oid : List Nat → Bytes
  | a :: b :: r => UInt8.ofNat (40 * a + b) :: r.flatMap (arc · 10)
  | _ => []

/-- INTEGER. -/
def int (x : Nat) : Bytes := tlv 0x02 (derInt x)

/-- `RSAPublicKey`. -/
def rsaPublicKey (N E : Nat) : Bytes := tlv 0x30 (int N ++ int E)

/-- `SubjectPublicKeyInfo` with algorithm 1.2.840.113549.1.1.1. -/
def spki (N E : Nat) : Bytes :=
  tlv 0x30 (tlv 0x30 (tlv 0x06 (oid [1, 2, 840, 113549, 1, 1, 1]) ++ tlv 0x05 []) ++ tlv 0x03 (0 :: rsaPublicKey N E))

/-- `RSAPrivateKey`, version 0. -/
def rsaPrivateKey (N E : Nat) (s : Priv) : Bytes :=
  tlv 0x30 (tlv 0x02 [0] ++ (int N ++ (int E ++ (int s.D ++ (int s.P ++ (int s.Q ++ (int s.DP ++ (int s.DQ ++ int s.QP))))))))

/-- A PEM text with a final line feed. -/
def pem (header footer der : Bytes) : Bytes := header ++ 0x0a :: (wrap (base64 der) ++ (footer ++ [0x0a]))

end Spec

open Spec

theorem rsaOid_spec : oid [1, 2, 840, 113549, 1, 1, 1] = rsaOid := by decide +kernel

/-- A number that an `mbedtls_mpi` can hold. -/
def Num (x : Nat) : Prop := 0 < x ∧ x < 256 ^ 80000

theorem int_length_le {x : Nat} (h : Num x) : (Spec.int x).length ≤ digits x + 7 ∧ (Spec.int x).length ≤ 80007 := by
  have h1 := @derInt_length x
  have h2 := (digits_le x 80000).2 h.2
  have h3 := derLen_length (derInt x).length (by omega)
  simp only [Spec.int, tlv, List.length_cons, List.length_append]
  omega

theorem int_cont {x : Nat} (h : Num x) (c : Bytes) : Cont (fun a => chkAdd a fun w => writeMpi w x) (Spec.int x) c :=
  chkAdd_cont (writeMpi_spec h.1 (by have := (digits_le x 80000).2 h.2; omega)) c

theorem Cont.cast {F G : Wr × Nat → Res (Wr × Nat)} {a b c : Bytes} (h : Cont F a c) (hF : F = G) (e : a = b) : Cont G b c := by
  subst hF; subst e; exact h

/-! ## Writing -/

theorem writeKeyDer_spec {k : Rsa} {s : Priv} (hs : k.priv = some s) (hN : Num k.N) (hE : Num k.E) (hD : Num s.D) (hP : Num s.P) (hQ : Num s.Q)
    (hDP : Num s.DP) (hDQ : Num s.DQ) (hQP : Num s.QP) (size : Nat) :
    writeKeyDer k size = if (rsaPrivateKey k.N k.E s).length ≤ size then
      .ok (⟨size - (rsaPrivateKey k.N k.E s).length, rsaPrivateKey k.N k.E s⟩, (rsaPrivateKey k.N k.E s).length) else err := by
  have l1 := (int_length_le hN).2
  have l2 := (int_length_le hE).2
  have l3 := (int_length_le hD).2
  have l4 := (int_length_le hP).2
  have l5 := (int_length_le hQ).2
  have l6 := (int_length_le hDP).2
  have l7 := (int_length_le hDQ).2
  have l8 := (int_length_le hQP).2
  have hi : Writes (fun w => writeInt w 0) (tlv 0x02 [0]) := writeInt_spec (v := 0) (by omega)
  have key := (int_cont hQP []).bind <| (int_cont hDQ _).bind <| (int_cont hDP _).bind <| (int_cont hQ _).bind <| (int_cont hP _).bind <|
    (int_cont hD _).bind <| (int_cont hE _).bind <| (int_cont hN _).bind <| (chkAdd_cont hi _).bind <|
    writeHeader_cont 0x30 _ (by
      simp only [List.length_append, List.length_nil, tlv, List.length_cons, derLen]
      simp; omega)
  have hk := key.cast (b := rsaPrivateKey k.N k.E s) rfl (by
    rw [rsaPrivateKey, tlv_cons 0x30]
    simp only [List.append_nil, List.append_assoc, List.cons_append])
  have := hk ⟨size, []⟩
  simp only [List.append_nil, List.length_nil] at this
  rw [writeKeyDer, hs]
  exact this

theorem rsaPublicKey_length_le {N E : Nat} (hN : Num N) (hE : Num E) : (rsaPublicKey N E).length ≤ 200000 := by
  have l1 := (int_length_le hN).2
  have l2 := (int_length_le hE).2
  have h3 := derLen_length (Spec.int N ++ Spec.int E).length (by simp; omega)
  simp only [rsaPublicKey, tlv, List.length_cons, List.length_append] at h3 ⊢
  omega

theorem writeRsaPubkey_spec {k : Rsa} (hN : Num k.N) (hE : Num k.E) : Writes (fun w => writeRsaPubkey w k) (rsaPublicKey k.N k.E) := by
  have l1 := (int_length_le hN).2
  have l2 := (int_length_le hE).2
  have key := (int_cont hE []).bind <| (int_cont hN _).bind <| writeHeader_cont 0x30 _ (by simp only [List.length_append, List.length_nil]; omega)
  have h := key.writes
  have e : (0x30 :: derLen (Spec.int k.N ++ (Spec.int k.E ++ [])).length) ++ Spec.int k.N ++ Spec.int k.E = rsaPublicKey k.N k.E := by
    rw [rsaPublicKey, tlv_cons 0x30]
    simp only [List.append_nil, List.append_assoc]
  rw [e] at h
  exact h

theorem writeUnused_cont (c : Bytes) : Cont writeUnused [0] c := by
  intro w
  simp only [writeUnused]
  by_cases ha : w.avail < 1
  · rw [if_pos ha, if_neg (by simp; omega)]
  · rw [if_neg ha, if_pos (by simp; omega), push, if_neg (by omega)]; simp

theorem algId_length : (tlv 0x30 (tlv 0x06 rsaOid ++ tlv 0x05 [])).length = 15 := by decide +kernel

theorem writePubkeyDer_spec {k : Rsa} (hN : Num k.N) (hE : Num k.E) (size : Nat) :
    writePubkeyDer k size = if (spki k.N k.E).length ≤ size then
      .ok (⟨size - (spki k.N k.E).length, spki k.N k.E⟩, (spki k.N k.E).length) else err := by
  have hl := rsaPublicKey_length_le hN hE
  have w1 : Writes (fun w => chkAdd (w, 0) fun w => writeRsaPubkey w k) (rsaPublicKey k.N k.E) := (chkAdd_cont (writeRsaPubkey_spec hN hE) []).writes
  have h3 := derLen_length ([0] ++ (rsaPublicKey k.N k.E ++ [])).length (by simp; omega)
  have key := (chkAdd_cont w1 []).bind <| (writeUnused_cont _).bind <| (writeHeader_cont 0x03 _ (by simp; omega)).bind <|
    (chkAdd_cont (writeAlg_spec rsaOid (by decide)) _).bind <| writeHeader_cont 0x30 _ (by
      simp only [List.length_append, List.length_cons, List.length_nil, algId_length] at h3 ⊢; omega)
  have hk := key.cast (b := spki k.N k.E) rfl (by
    rw [spki, rsaOid_spec, tlv_cons 0x30 (_ ++ tlv 0x03 _), tlv_cons 0x03]
    simp only [List.append_nil, List.append_assoc, List.cons_append, List.nil_append])
  have := hk ⟨size, []⟩
  simp only [List.append_nil, List.length_nil] at this
  rw [writePubkeyDer]
  exact this

/-! ## Parsing -/

theorem getInt_zero (rest : Bytes) : getInt (tlv 0x02 [0] ++ rest) = .ok (0, rest) := by
  rw [getInt, getTag_ok _ (by simp), Res.bind_ok]
  rfl

theorem getMpi_int {x : Nat} (h : Num x) (rest : Bytes) : getMpi (Spec.int x ++ rest) = .ok (x, rest) := getMpi_ok h.2 rest

/-- The key that the parser builds. -/
def mkPriv (N E : Nat) (s : Priv) : Rsa := { len := mpiSize N, N := N, E := E, priv := some s, blind := none }

def mkPub (N E : Nat) : Rsa := { len := mpiSize N, N := N, E := E, priv := none, blind := none }

theorem parsePkcs1_spec {N E : Nat} {s : Priv} (hN : Num N) (hE : Num E) (hD : Num s.D) (hP : Num s.P) (hQ : Num s.Q)
    (hDP : Num s.DP) (hDQ : Num s.DQ) (hQP : Num s.QP) :
    parsePkcs1 (rsaPrivateKey N E s) = if checkPriv (mkPriv N E s) then .ok (mkPriv N E s) else err := by
  have l1 := (int_length_le hN).2
  have l2 := (int_length_le hE).2
  have l3 := (int_length_le hD).2
  have l4 := (int_length_le hP).2
  have l5 := (int_length_le hQ).2
  have l6 := (int_length_le hDP).2
  have l7 := (int_length_le hDQ).2
  have l8 := (int_length_le hQP).2
  have g8 := getMpi_int hQP []
  rw [List.append_nil] at g8
  have ht := getTag_ok 0x30 (c := tlv 0x02 [0] ++ (Spec.int N ++ (Spec.int E ++ (Spec.int s.D ++ (Spec.int s.P ++ (Spec.int s.Q ++ (Spec.int s.DP ++ (Spec.int s.DQ ++ Spec.int s.QP)))))))) (by
      simp only [List.length_append, tlv, List.length_cons, derLen]
      simp; omega) []
  rw [List.append_nil, List.append_nil] at ht
  rw [parsePkcs1, rsaPrivateKey, ht, Res.bind_ok]
  simp only [List.take_length]
  rw [getInt_zero, Res.bind_ok]
  simp only [ne_eq, not_true_eq_false, if_false]
  rw [getMpi_int hN, Res.bind_ok, getMpi_int hE, Res.bind_ok, getMpi_int hD, Res.bind_ok, getMpi_int hP, Res.bind_ok, getMpi_int hQ, Res.bind_ok,
    getMpi_int hDP, Res.bind_ok, getMpi_int hDQ, Res.bind_ok, g8, Res.bind_ok]
  simp only [not_true_eq_false, if_false]
  rfl

theorem getPkAlg_ok (rest : Bytes) : getPkAlg (tlv 0x30 (tlv 0x06 rsaOid ++ tlv 0x05 []) ++ rest) = .ok rest := by
  have ha : getAlg (tlv 0x30 (tlv 0x06 rsaOid ++ tlv 0x05 []) ++ rest) = .ok (⟨rsaOid, 0x05, 0⟩, rest) := by
    rw [getAlg, getTag_ok _ (by decide +kernel), Res.bind_ok]
    simp only
    rw [if_neg (by simp [tlv])]
    have hr : rd (tlv 0x06 rsaOid ++ tlv 0x05 [] ++ rest) 0 = .ok 0x06 := rfl
    rw [hr, Res.bind_ok, List.take_left' rfl, getTag_ok _ (by decide), Res.bind_ok, takeN_ok (by simp), Res.bind_ok, List.take_left' rfl,
      List.drop_left' rfl, List.drop_left' rfl]
    rfl
  rw [getPkAlg, ha, Res.bind_ok]
  rfl

theorem parseSubpubkey_spec {N E : Nat} (hN : Num N) (hE : Num E) :
    parseSubpubkey (spki N E) = if checkPub (mkPub N E) then .ok (mkPub N E) else err := by
  have l1 := (int_length_le hN).2
  have l2 := (int_length_le hE).2
  have hl := rsaPublicKey_length_le hN hE
  have h3 := derLen_length (0 :: rsaPublicKey N E).length (by simp; omega)
  have ht := getTag_ok 0x30 (c := tlv 0x30 (tlv 0x06 rsaOid ++ tlv 0x05 []) ++ tlv 0x03 (0 :: rsaPublicKey N E)) (by
    rw [List.length_append, algId_length, tlv, List.length_cons, List.length_append]
    simp only [List.length_cons] at h3 ⊢; omega) []
  rw [List.append_nil, List.append_nil] at ht
  rw [parseSubpubkey, spki, rsaOid_spec, ht, Res.bind_ok]
  simp only [List.take_length]
  rw [getPkAlg_ok, Res.bind_ok]
  have hb : getBits (tlv 0x03 (0 :: rsaPublicKey N E)) = .ok ((rsaPublicKey N E).length, rsaPublicKey N E) := by
    have := getTag_ok 0x03 (c := 0 :: rsaPublicKey N E) (by simp; omega) []
    rw [List.append_nil, List.append_nil] at this
    rw [getBits, this, Res.bind_ok]
    simp only [List.length_cons]
    have hpos : 1 ≤ (rsaPublicKey N E).length := by simp [rsaPublicKey, tlv]
    have hr : rd (0 :: rsaPublicKey N E) 0 = .ok 0 := rfl
    rw [if_neg (by omega), hr, Res.bind_ok]
    rfl
  rw [hb, Res.bind_ok]
  simp only [ne_eq, not_true_eq_false, if_false]
  have g2 := getMpi_int hE []
  rw [List.append_nil] at g2
  have ht2 := getTag_ok 0x30 (c := Spec.int N ++ Spec.int E) (by simp; omega) []
  rw [List.append_nil, List.append_nil] at ht2
  rw [getRsaPubkey, rsaPublicKey, ht2, Res.bind_ok]
  simp only [ne_eq, not_true_eq_false, if_false]
  rw [getMpi_int hN, Res.bind_ok, g2, Res.bind_ok]
  simp only [not_true_eq_false, if_false]
  rfl

/-! ## What the checks of the RSA module guarantee -/

theorem num_of_lt {x : Nat} {l : Nat} (h0 : 0 < x) (h : x < 256 ^ l) (hl : l ≤ 80000) : Num x :=
  ⟨h0, Nat.lt_of_lt_of_le h (Nat.pow_le_pow_right (by omega) hl)⟩

theorem checkPub_facts {k : Rsa} (h : checkPub k = true) : 0 < k.E ∧ k.E < k.N ∧ k.N < 256 ^ 1024 ∧ k.N % 2 = 1 := by
  unfold checkPub at h
  by_cases h1 : k.N % 2 = 0 ∨ k.E % 2 = 0
  · rw [if_pos h1] at h; cases h
  rw [if_neg h1] at h
  by_cases h2 : bitlen k.N < 128 ∨ bitlen k.N > 8192
  · rw [if_pos h2] at h; cases h
  rw [if_neg h2] at h
  by_cases h3 : bitlen k.E < 2 ∨ k.E ≥ k.N
  · rw [if_pos h3] at h; cases h
  have h4 : k.N < 2 ^ 8192 := (bitlen_le_iff k.N 8192).1 (by omega)
  refine ⟨by omega, by omega, ?_, by omega⟩
  have e : (256 : Nat) ^ 1024 = 2 ^ 8192 := by rw [show (256 : Nat) = 2 ^ 8 by rfl, ← Nat.pow_mul]
  omega

/-- The numbers of a key accepted by `mbedtls_rsa_check_privkey`. -/
theorem checkPriv_facts {k : Rsa} {s : Priv} (hs : k.priv = some s) (h : checkPriv k = true) :
    checkPub k = true ∧ 0 < s.D ∧ 0 < s.P ∧ 0 < s.Q ∧ 0 < s.DP ∧ 0 < s.DQ ∧ 0 < s.QP ∧
      s.P ≤ k.N ∧ s.Q ≤ k.N ∧ s.DP ≤ k.N ∧ s.DQ ≤ k.N ∧ s.QP ≤ k.N := by
  have h0 : checkPub k = true := by
    by_contra hc
    unfold checkPriv at h
    rw [if_pos (by simpa using hc)] at h
    simp at h
  obtain ⟨hE, hEN, -, hodd⟩ := checkPub_facts h0
  unfold checkPriv at h
  rw [if_neg (by simp [h0]), hs] at h
  simp only at h
  by_cases hneg : (s.P : Int) - 1 < 0 ∨ (s.Q : Int) - 1 < 0
  · rw [if_pos hneg] at h; cases h
  rw [if_neg hneg] at h
  have e1 : ((s.P : Int) - 1).toNat = s.P - 1 := by omega
  have e2 : ((s.Q : Int) - 1).toNat = s.Q - 1 := by omega
  rw [e1, e2] at h
  by_cases hg0 : mpiGcd (s.P - 1) (s.Q - 1) = 0
  · rw [if_pos hg0] at h; cases h
  rw [if_neg hg0] at h
  by_cases hP1 : s.P - 1 = 0
  · have : mpiMod (s.D : Int) (s.P - 1) = none := by rw [mpiMod, if_pos hP1]
    rw [this] at h
    cases hm : mpiMod ((s.D * k.E : Nat) : Int) ((s.P - 1) * (s.Q - 1) / mpiGcd (s.P - 1) (s.Q - 1)) <;> rw [hm] at h <;> simp at h
  have hQ1 : s.Q - 1 ≠ 0 := by
    intro hc; apply hg0; rw [mpiGcd, if_pos hc]
  have hgpos : 0 < Nat.gcd (s.P - 1) (s.Q - 1) := Nat.gcd_pos_of_pos_left _ (by omega)
  rw [mpiGcd_pos (by omega)] at h
  have hL : 0 < (s.P - 1) * (s.Q - 1) / Nat.gcd (s.P - 1) (s.Q - 1) :=
    Nat.div_pos (le_trans (Nat.gcd_le_left _ (by omega)) (Nat.le_mul_of_pos_right _ (by omega))) hgpos
  rw [mpiMod_nat hL, mpiMod_nat (by omega : 0 < s.P - 1), mpiMod_nat (by omega : 0 < s.Q - 1)] at h
  rcases hqp : mpiInv s.Q s.P with _ | QP
  · rw [hqp] at h; simp at h
  rw [hqp] at h
  simp only [Bool.and_eq_true, decide_eq_true_eq] at h
  obtain ⟨⟨⟨⟨⟨⟨hN, hDP⟩, hDQ⟩, hQP⟩, -⟩, hI⟩, hG⟩ := h
  subst hQP
  have hP2 : 1 < s.P := by omega
  have hcop : Nat.gcd s.Q s.P = 1 := by
    by_contra hne
    unfold mpiInv at hqp
    rw [if_neg (by omega), mpiGcd_pos (by omega), if_pos hne] at hqp
    simp at hqp
  obtain ⟨x, hx, hxlt, hxe⟩ := mpiInv_spec hP2 hcop
  rw [hqp] at hx
  have hx' := Option.some.inj hx
  subst hx'
  have hlcm : (s.P - 1) * (s.Q - 1) / Nat.gcd (s.P - 1) (s.Q - 1) = Nat.lcm (s.P - 1) (s.Q - 1) := rfl
  rw [hlcm] at hI hL
  have hoP : s.P % 2 = 1 := by
    by_contra hne
    have : s.P % 2 = 0 := by omega
    rw [← hN, Nat.mul_mod, this] at hodd; simp at hodd
  have hoQ : s.Q % 2 = 1 := by
    by_contra hne
    have : s.Q % 2 = 0 := by omega
    rw [← hN, Nat.mul_mod, this] at hodd; simp at hodd
  have hnd : ∀ m, 2 ≤ m → m ∣ Nat.lcm (s.P - 1) (s.Q - 1) → s.D % m ≠ 0 := by
    intro m hm hdvd hz
    have h1 : m ∣ s.D * k.E := dvd_mul_of_dvd_left (Nat.dvd_of_mod_eq_zero hz) _
    have h2 : m ∣ s.D * k.E % Nat.lcm (s.P - 1) (s.Q - 1) := (Nat.dvd_mod_iff hdvd).2 h1
    rw [hI] at h2
    have := Nat.le_of_dvd (by omega) h2
    omega
  have hPN : s.P ≤ k.N := by rw [← hN]; exact Nat.le_mul_of_pos_right _ (by omega)
  have hQN : s.Q ≤ k.N := by rw [← hN]; exact Nat.le_mul_of_pos_left _ (by omega)
  have hDPlt : s.D % (s.P - 1) < s.P - 1 := Nat.mod_lt _ (by omega)
  have hDQlt : s.D % (s.Q - 1) < s.Q - 1 := Nat.mod_lt _ (by omega)
  have a1 := hnd (s.P - 1) (by omega) (Nat.dvd_lcm_left _ _)
  have a2 := hnd (s.Q - 1) (by omega) (Nat.dvd_lcm_right _ _)
  refine ⟨h0, ?_, by omega, by omega, by omega, by omega, ?_, hPN, hQN, by omega, by omega, by omega⟩
  · rcases Nat.eq_zero_or_pos s.D with hz | hz
    · rw [hz] at a1; simp at a1
    · exact hz
  · rcases Nat.eq_zero_or_pos s.QP with hz | hz
    · rw [hz] at hxe; simp at hxe
    · exact hz

/-- All the numbers of an accepted key can be encoded. -/
theorem checkPriv_nums {k : Rsa} {s : Priv} (hs : k.priv = some s) (h : checkPriv k = true) (hD : s.D < 256 ^ 80000) :
    Num k.N ∧ Num k.E ∧ Num s.D ∧ Num s.P ∧ Num s.Q ∧ Num s.DP ∧ Num s.DQ ∧ Num s.QP := by
  obtain ⟨h0, f1, f2, f3, f4, f5, f6, g2, g3, g4, g5, g6⟩ := checkPriv_facts hs h
  obtain ⟨e0, e1, e2, -⟩ := checkPub_facts h0
  exact ⟨num_of_lt (l := 1024) (by omega) (by omega) (by omega), num_of_lt (l := 1024) (by omega) (by omega) (by omega), ⟨f1, hD⟩,
    num_of_lt (l := 1024) f2 (by omega) (by omega), num_of_lt (l := 1024) f3 (by omega) (by omega), num_of_lt (l := 1024) f4 (by omega) (by omega),
    num_of_lt (l := 1024) f5 (by omega) (by omega), num_of_lt (l := 1024) f6 (by omega) (by omega)⟩

/-! ## PEM texts -/

/-- The size that `mbedtls_pem_write_buffer` wants for `n` bytes of DER and markers of `m` bytes together (with their line feeds). -/
def pemNeed (n m : Nat) : Nat := 4 * ((n + 2) / 3) + 1 + m + (4 * ((n + 2) / 3) + 1) / 64 + 1

theorem pem_no_zero {header footer : Bytes} (hm : Marks header footer) (der : Bytes) : ∀ c ∈ pem header footer der, c ≠ 0 := by
  intro c hc
  simp only [pem, List.mem_append, List.mem_cons, List.not_mem_nil, or_false] at hc
  rcases hc with h | h | h | h | h
  · exact hm.h0 c h
  · rw [h]; decide
  · exact (wrap_chars h).1
  · exact hm.f0 c h
  · rw [h]; decide

theorem cString_pem {header footer : Bytes} (hm : Marks header footer) (der : Bytes) : cString (pem header footer der ++ [0]) = .ok (pem header footer der) := by
  have hc : (pem header footer der ++ [0]).contains 0 = true := by simp
  rw [cString, if_pos hc, cstr_append (pem_no_zero hm der)]
  simp [cstr]

theorem writePem_spec {header footer der : Bytes} (hd : der ≠ []) (hl : der.length < 2 ^ 60) (hh : header.length + footer.length < 1000) (size : Nat) :
    pemWrite (header ++ [0x0a]) (footer ++ [0x0a]) der size =
      .ok (if pemNeed der.length (header.length + footer.length + 2) ≤ size then some (pem header footer der ++ [0]) else none) := by
  have := (c48_write (header ++ [0x0a]) (footer ++ [0x0a]) der hd hl (by simp; omega) size).2
  rw [this]
  have e1 : header ++ [0x0a] ++ wrap (base64 der) ++ (footer ++ [0x0a]) ++ [0] = pem header footer der ++ [0] := by
    simp [pem]
  have e2 : 4 * ((der.length + 2) / 3) + 1 + (header ++ [0x0a]).length + (footer ++ [0x0a]).length + (4 * ((der.length + 2) / 3) + 1) / 64 + 1 =
      pemNeed der.length (header.length + footer.length + 2) := by
    simp only [pemNeed, List.length_append, List.length_cons, List.length_nil]; omega
  rw [e1, e2]

theorem lastBytes_all (n : Nat) (b : Bytes) : lastBytes ⟨n, b⟩ b.length = .ok b := by
  rw [lastBytes, if_neg (by simp only; omega)]
  simp

theorem readPem_pem {header footer : Bytes} (hm : Marks header footer) {der : Bytes} (hd : der ≠ []) (hl : der.length < 2 ^ 60)
    (hh : header.length + footer.length < 1000) (tail : Bytes) (ht : tail.length < 1000) :
    ∃ u, readPem header footer (header ++ 0x0a :: (wrap (base64 der) ++ (footer ++ (tail ++ [0])))) = .ok (.ok der u) := by
  have hL := base64_length der
  have hWl := wrap_length (base64 der)
  obtain ⟨u, hu⟩ := c48_read hm der hd (tail ++ [0]) (by simp) (by simp only [List.length_append, List.length_cons, List.length_nil]; omega)
  refine ⟨u, ?_⟩
  have e : header ++ 0x0a :: (wrap (base64 der) ++ (footer ++ (tail ++ [0]))) = (header ++ 0x0a :: (wrap (base64 der) ++ (footer ++ tail))) ++ [0] := by simp
  rw [readPem, if_pos (by rw [e, List.getLast?_concat]), hu]

theorem markLengths : privHeader.length = 31 ∧ privFooter.length = 29 ∧ pubHeader.length = 26 ∧ pubFooter.length = 24 := by decide +kernel

theorem rsaPrivateKey_ne (N E : Nat) (s : Priv) : rsaPrivateKey N E s ≠ [] := by simp [rsaPrivateKey, tlv]
theorem spki_ne (N E : Nat) : spki N E ≠ [] := by simp [spki, tlv]

theorem rsaPrivateKey_length {N E : Nat} {s : Priv} (hN : Num N) (hE : Num E) (hD : Num s.D) (hP : Num s.P) (hQ : Num s.Q)
    (hDP : Num s.DP) (hDQ : Num s.DQ) (hQP : Num s.QP) : (rsaPrivateKey N E s).length < 2 ^ 21 ∧
      (rsaPrivateKey N E s).length ≤ digits N + digits E + digits s.D + digits s.P + digits s.Q + digits s.DP + digits s.DQ + digits s.QP + 65 := by
  obtain ⟨a1, b1⟩ := int_length_le hN
  obtain ⟨a2, b2⟩ := int_length_le hE
  obtain ⟨a3, b3⟩ := int_length_le hD
  obtain ⟨a4, b4⟩ := int_length_le hP
  obtain ⟨a5, b5⟩ := int_length_le hQ
  obtain ⟨a6, b6⟩ := int_length_le hDP
  obtain ⟨a7, b7⟩ := int_length_le hDQ
  obtain ⟨a8, b8⟩ := int_length_le hQP
  have e0 : (tlv 0x02 [0] : Bytes).length = 3 := by decide
  have hd := derLen_length (tlv 0x02 [0] ++ (Spec.int N ++ (Spec.int E ++ (Spec.int s.D ++ (Spec.int s.P ++ (Spec.int s.Q ++ (Spec.int s.DP ++ (Spec.int s.DQ ++ Spec.int s.QP)))))))).length (by
    simp only [List.length_append, e0]; omega)
  rw [rsaPrivateKey, tlv_cons 0x30]
  simp only [List.length_append, List.length_cons, e0] at hd ⊢
  omega

/-! ## C42 -/

/-- The private key as `private_key()` writes it. -/
def privText (N E : Nat) (s : Priv) : Bytes := pem privHeader privFooter (rsaPrivateKey N E s)

/-- The public key as `public_key()` writes it. -/
def pubText (N E : Nat) : Bytes := pem pubHeader pubFooter (spki N E)

/-- C42: `private_key()` of an accepted key returns the RFC 7468 text of the RFC 8017 `RSAPrivateKey`, or throws exactly if it does not fit the 5000-byte buffer. -/
theorem c42_export_private {k : Rsa} {s : Priv} (hs : k.priv = some s) (h : checkPriv k = true) (hD : s.D < 256 ^ 80000) :
    privateKey k = if pemNeed (rsaPrivateKey k.N k.E s).length 62 ≤ 5000 then .ok (privText k.N k.E s) else .exc .runtimeError := by
  obtain ⟨hN, hE, hD, hP, hQ, hDP, hDQ, hQP⟩ := checkPriv_nums hs h hD
  have hlen := (rsaPrivateKey_length hN hE hD hP hQ hDP hDQ hQP).1
  obtain ⟨m1, m2, -, -⟩ := markLengths
  rw [privateKey, writeKeyPem, writeKeyDer_spec hs hN hE hD hP hQ hDP hDQ hQP]
  have hw := writePem_spec (header := privHeader) (footer := privFooter) (rsaPrivateKey_ne k.N k.E s) (by omega) (by omega) 5000
  rw [show privHeader.length + privFooter.length + 2 = 62 by omega] at hw
  by_cases hfit : (rsaPrivateKey k.N k.E s).length ≤ prvDerMax
  · rw [if_pos hfit, Res.bind_ok, lastBytes_all, Res.bind_ok, hw, Res.bind_ok]
    split
    · rw [orThrow, Res.bind_ok]; exact cString_pem privMarks _
    · rfl
  · rw [if_neg hfit, if_neg]
    · rfl
    · simp only [prvDerMax] at hfit
      simp only [pemNeed]; omega

/-- C42: importing the text of a private key, with or without the final line feed, gives the key with the same numbers. -/
theorem c42_import_private {k : Rsa} {s : Priv} (hs : k.priv = some s) (h : checkPriv k = true) (hlen : k.len = mpiSize k.N) (hD : s.D < 256 ^ 80000) :
    importPrivate (privText k.N k.E s) = .ok { k with blind := none } ∧
    ∀ body, privText k.N k.E s = body ++ [0x0a] → importPrivate body = .ok { k with blind := none } := by
  obtain ⟨hN, hE, hD, hP, hQ, hDP, hDQ, hQP⟩ := checkPriv_nums hs h hD
  have hl := (rsaPrivateKey_length hN hE hD hP hQ hDP hDQ hQP).1
  obtain ⟨m1, m2, -, -⟩ := markLengths
  have hk : mkPriv k.N k.E s = { k with blind := none } := by
    cases k; simp only at hs hlen ⊢; rw [mkPriv, hs, hlen]
  have hp := parsePkcs1_spec hN hE hD hP hQ hDP hDQ hQP
  have hc : checkPriv (mkPriv k.N k.E s) = true := by rw [← h, hk]; rfl
  rw [if_pos hc] at hp
  have key : ∀ tail : Bytes, tail.length < 1000 →
      importPrivate (privHeader ++ 0x0a :: (wrap (base64 (rsaPrivateKey k.N k.E s)) ++ (privFooter ++ tail))) = .ok { k with blind := none } := by
    intro tail ht
    obtain ⟨u, hu⟩ := readPem_pem privMarks (rsaPrivateKey_ne k.N k.E s) (by omega) (by omega) tail ht
    have e : privHeader ++ 0x0a :: (wrap (base64 (rsaPrivateKey k.N k.E s)) ++ (privFooter ++ tail)) ++ [0] =
        privHeader ++ 0x0a :: (wrap (base64 (rsaPrivateKey k.N k.E s)) ++ (privFooter ++ (tail ++ [0]))) := by simp
    rw [importPrivate, e, parseKey, hu, Res.bind_ok]
    simp only
    rw [hp, Res.bind_ok]
    have hpub : checkPub (rsaCopy (mkPriv k.N k.E s)) = true := (checkPriv_facts (k := mkPriv k.N k.E s) rfl hc).1
    rw [if_pos hpub, ← hk]; rfl
  refine ⟨key [0x0a] (by simp), ?_⟩
  intro body hb
  have := key [] (by simp)
  rw [List.append_nil] at this
  have e : privText k.N k.E s = (privHeader ++ 0x0a :: (wrap (base64 (rsaPrivateKey k.N k.E s)) ++ privFooter)) ++ [0x0a] := by
    simp [privText, pem]
  rw [e] at hb
  have := (List.append_inj' hb rfl).1
  rw [← this]; assumption

/-- C42: what `private_key()` returned is imported as the key with the same parameters. -/
theorem c42_private {k : Rsa} {s : Priv} (hs : k.priv = some s) (h : checkPriv k = true) (hlen : k.len = mpiSize k.N) (hD : s.D < 256 ^ 80000)
    {text : Bytes} (ht : privateKey k = .ok text) : importPrivate text = .ok { k with blind := none } := by
  rw [c42_export_private hs h hD] at ht
  split at ht
  · injection ht with ht
    rw [← ht]; exact (c42_import_private hs h hlen hD).1
  · cases ht

/-- C42: keys up to 2048 bits with a private exponent up to 2048 bits are exported. -/
theorem c42_private_2048 {k : Rsa} {s : Priv} (hs : k.priv = some s) (h : checkPriv k = true) (hlen : k.len = mpiSize k.N)
    (hN : k.N < 256 ^ 256) (hD : s.D < 256 ^ 256) :
    ∃ text, privateKey k = .ok text ∧ importPrivate text = .ok { k with blind := none } := by
  have hD' : s.D < 256 ^ 80000 := Nat.lt_of_lt_of_le hD (Nat.pow_le_pow_right (by omega) (by omega))
  obtain ⟨h0, f1, f2, f3, f4, f5, f6, g2, g3, g4, g5, g6⟩ := checkPriv_facts hs h
  obtain ⟨e0, e1, e2, -⟩ := checkPub_facts h0
  obtain ⟨nN, nE, nD, nP, nQ, nDP, nDQ, nQP⟩ := checkPriv_nums hs h hD'
  have hl := (rsaPrivateKey_length nN nE nD nP nQ nDP nDQ nQP).2
  have d1 := (digits_le k.N 256).2 hN
  have d2 := (digits_le k.E 256).2 (by omega)
  have d3 := (digits_le s.D 256).2 hD
  have d4 := (digits_le s.P 256).2 (by omega)
  have d5 := (digits_le s.Q 256).2 (by omega)
  have d6 := (digits_le s.DP 256).2 (by omega)
  have d7 := (digits_le s.DQ 256).2 (by omega)
  have d8 := (digits_le s.QP 256).2 (by omega)
  have he := c42_export_private hs h hD'
  rw [if_pos (by simp only [pemNeed]; omega)] at he
  exact ⟨_, he, c42_private hs h hlen hD' he⟩

/-- The DER form of an accepted public key fits the buffer that is made for it. -/
theorem spki_length {k : Rsa} (h : checkPub k = true) : (spki k.N k.E).length ≤ pubDerMax := by
  obtain ⟨e0, e1, e2, -⟩ := checkPub_facts h
  have hN : Num k.N := num_of_lt (l := 1024) (by omega) e2 (by omega)
  have hE : Num k.E := num_of_lt (l := 1024) e0 (by omega) (by omega)
  have d1 := (digits_le k.N 1024).2 e2
  have d2 := (digits_le k.E 1024).2 (by omega)
  have small : ∀ n, n < 65536 → (derLen n).length ≤ 3 := by
    intro n hn
    rw [derLen]; split
    · simp
    · have : digits n ≤ 2 := (digits_le n 2).2 (by omega)
      simp; omega
  have hi : ∀ x, digits x ≤ 1024 → (Spec.int x).length ≤ 1029 := by
    intro x hx
    have h1 := @derInt_length x
    have h3 := small (derInt x).length (by omega)
    simp only [Spec.int, tlv, List.length_cons, List.length_append]; omega
  have i1 := hi k.N d1
  have i2 := hi k.E d2
  have hpk : (rsaPublicKey k.N k.E).length ≤ 2062 := by
    have h3 := small (Spec.int k.N ++ Spec.int k.E).length (by simp; omega)
    simp only [rsaPublicKey, tlv, List.length_cons, List.length_append] at h3 ⊢; omega
  have hbits : (tlv 0x03 (0 :: rsaPublicKey k.N k.E)).length ≤ 2067 := by
    have h3 := small (0 :: rsaPublicKey k.N k.E).length (by simp; omega)
    simp only [tlv, List.length_cons, List.length_append] at h3 ⊢; omega
  have h3 := small (tlv 0x30 (tlv 0x06 rsaOid ++ tlv 0x05 []) ++ tlv 0x03 (0 :: rsaPublicKey k.N k.E)).length (by
    rw [List.length_append, algId_length]; omega)
  rw [spki, rsaOid_spec, tlv_cons 0x30 (_ ++ tlv 0x03 _), List.length_append, List.length_cons]
  rw [List.length_append, algId_length] at h3 ⊢
  simp only [pubDerMax]; omega

/-- C42: every key accepted by `mbedtls_rsa_check_pubkey` has a public key text, which is imported as the same modulus and exponent. -/
theorem c42_public {k : Rsa} (h : checkPub k = true) :
    publicKey k = .ok (pubText k.N k.E) ∧ importPublic (pubText k.N k.E) = .ok { len := mpiSize k.N, N := k.N, E := k.E, priv := none, blind := none } := by
  obtain ⟨e0, e1, e2, -⟩ := checkPub_facts h
  have hN : Num k.N := num_of_lt (l := 1024) (by omega) e2 (by omega)
  have hE : Num k.E := num_of_lt (l := 1024) e0 (by omega) (by omega)
  have hsp := spki_length h
  simp only [pubDerMax] at hsp
  obtain ⟨-, -, m1, m2⟩ := markLengths
  constructor
  · have hw := writePem_spec (header := pubHeader) (footer := pubFooter) (spki_ne k.N k.E) (by omega) (by omega) 5000
    rw [if_pos (by simp only [pemNeed]; omega)] at hw
    rw [publicKey, writePubkeyPem, writePubkeyDer_spec hN hE, if_pos (by simp only [pubDerMax]; omega), Res.bind_ok, lastBytes_all, Res.bind_ok, hw, Res.bind_ok,
      orThrow, Res.bind_ok]
    exact cString_pem pubMarks _
  · have hp := parseSubpubkey_spec hN hE
    have hc : checkPub (mkPub k.N k.E) = true := by rw [← h]; rfl
    rw [if_pos hc] at hp
    obtain ⟨u, hu⟩ := readPem_pem pubMarks (spki_ne k.N k.E) (by omega) (by omega) [0x0a] (by simp)
    have e : pubText k.N k.E ++ [0] = pubHeader ++ 0x0a :: (wrap (base64 (spki k.N k.E)) ++ (pubFooter ++ ([0x0a] ++ [0]))) := by
      simp [pubText, pem]
    rw [importPublic, e, parsePublicKey, hu, Res.bind_ok]
    simp only
    rw [hp, Res.bind_ok, if_pos (show checkPub (rsaCopy (mkPub k.N k.E)) = true from hc)]
    rfl

end Verif.Io
