import Verif.Aez.SpecTiny

/-!
# The permutation is AEZ (C70)

For every AES round function, every 48-byte key and every string, `Prp::encrypt` and `Prp::decrypt` return what `AezSpec` describes.
-/

namespace Verif.Aez

open Verif

/-- The round function on integers. -/
def roundNat (R : Block → Block) (v : Nat) : Nat := Spec.val (R fun i => (beBytes 16 v).getD i.1 0)

theorem roundNat_eq (R : Block → Block) (b : Block) : Spec.val (R b) = roundNat R (Spec.val b) := by
  rw [roundNat, beBytes_val]
  congr 2
  funext i
  rw [List.getD_eq_getElem?_getD, List.getElem?_ofFn, dif_pos i.2]; rfl

theorem encipher_tiny (r : Nat → Nat) (k : AezSpec.Key) (D : Nat) {s : Bytes} (h1 : 1 ≤ s.length) (h : s.length < 32) :
    AezSpec.encipherD r k D s = beBytes s.length (AezSpec.tinyEnc r k D s.length (beNat s)) := by
  rw [AezSpec.encipherD, if_neg (by omega), if_pos h]
theorem decipher_tiny (r : Nat → Nat) (k : AezSpec.Key) (D : Nat) {s : Bytes} (h1 : 1 ≤ s.length) (h : s.length < 32) :
    AezSpec.decipherD r k D s = beBytes s.length (AezSpec.tinyDec r k D s.length (beNat s)) := by
  rw [AezSpec.decipherD, if_neg (by omega), if_pos h]
theorem encipher_core (r : Nat → Nat) (k : AezSpec.Key) (D : Nat) {s : Bytes} (h : 32 ≤ s.length) : AezSpec.encipherD r k D s = AezSpec.core r k D 1 2 s := by
  rw [AezSpec.encipherD, if_neg (by omega), if_neg (by omega)]
theorem decipher_core (r : Nat → Nat) (k : AezSpec.Key) (D : Nat) {s : Bytes} (h : 32 ≤ s.length) : AezSpec.decipherD r k D s = AezSpec.core r k D 2 1 s := by
  rw [AezSpec.decipherD, if_neg (by omega), if_neg (by omega)]

section
variable {R : Block → Block} {r : Nat → Nat} (hr : ∀ b, Spec.val (R b) = r (Spec.val b)) {key : Bytes} (hk : key.length = 48)
include hr hk

/-- What the code writes is the specified string. -/
theorem out_specD {D : Nat} {t : Block} (hv : Spec.val t = D) (d : Bool) (s : Bytes) {Q : Nat → UInt8} (h : Out R (ctxOf key) t d s.length (fn s) Q) :
    ∀ i, i < s.length → Q i = (if d then AezSpec.decipherD r (AezSpec.key key) D s else AezSpec.encipherD r (AezSpec.key key) D s).getD i 0 := by
  rw [Out] at h
  by_cases h32 : s.length < 32
  · rw [if_pos h32] at h
    intro i hi
    have h1 : 1 ≤ s.length := by omega
    have hout := isNum_out hr hk hv h32 h1 d (isNum_list s)
    generalize hz : (if d then AezSpec.tinyDec r (AezSpec.key key) D s.length (beNat s) else AezSpec.tinyEnc r (AezSpec.key key) D s.length (beNat s)) = z at hout
    have e : (if d then AezSpec.decipherD r (AezSpec.key key) D s else AezSpec.encipherD r (AezSpec.key key) D s) = beBytes s.length z := by
      rw [← hz, decipher_tiny _ _ _ h1 h32, encipher_tiny _ _ _ h1 h32]
      cases d <;> rfl
    rw [e]
    have hn := isNum_list (beBytes s.length z)
    rw [beBytes_length, beNat_beBytes_of_lt (by rw [show (256 : Nat) = 2 ^ 8 from rfl, ← pow_mul]; exact hout.1)] at hn
    have hg : ∀ k, k < 8 * s.length → gb Q k = gb (fn (beBytes s.length z)) k := fun k hk' => by rw [h k hk', hout.2 k hk', hn.2 k hk']
    exact gb_ext hg i hi
  · rw [if_neg h32] at h
    intro i hi
    rw [h i hi, coreFn_spec hr hk s (by omega) hv d hi]
    congr 1
    rw [decipher_core _ _ _ (by omega), encipher_core _ _ _ (by omega)]
    cases d <;> rfl

theorem out_spec {t : Block} (ht : hash R (ctxOf key) = .ok t) (d : Bool) (s : Bytes) {Q : Nat → UInt8} (h : Out R (ctxOf key) t d s.length (fn s) Q) :
    ∀ i, i < s.length → Q i = (if d then AezSpec.decipher r (AezSpec.key key) s else AezSpec.encipher r (AezSpec.key key) s).getD i 0 :=
  out_specD hr hk (vHash hr hk ht) d s h

omit hr hk in
theorem specD_length {D : Nat} (d : Bool) (s : Bytes) :
    (if d then AezSpec.decipherD r (AezSpec.key key) D s else AezSpec.encipherD r (AezSpec.key key) D s).length = s.length := by
  have hcore : ∀ a b, 32 ≤ s.length → (AezSpec.core r (AezSpec.key key) D a b s).length = s.length := by
    intro a b h
    have hf : ∀ j, (beBytes 16 (AezSpec.c0Of r (AezSpec.key key) D a s (j + 1)) ++ beBytes 16 (AezSpec.c1Of r (AezSpec.key key) D a s (j + 1))).length = 32 := by
      intro j; simp
    obtain ⟨-, e2⟩ := initN_pairs s h
    rw [AezSpec.core]
    simp only [List.length_append, flatMap_length _ hf, beBytes_length, AezSpec.cuOf, AezSpec.cvOf, AezSpec.xorBytes, List.length_zipWith, AezSpec.uPart,
      AezSpec.vPart, List.length_take, List.length_drop]
    omega
  cases d
  · rw [if_neg (by decide), AezSpec.encipherD]
    by_cases h0 : s.length = 0
    · rw [if_pos h0]; simpa using h0.symm
    · rw [if_neg h0]
      by_cases h32 : s.length < 32
      · rw [if_pos h32, beBytes_length]
      · rw [if_neg h32, hcore _ _ (by omega)]
  · rw [if_pos rfl, AezSpec.decipherD]
    by_cases h0 : s.length = 0
    · rw [if_pos h0]; simpa using h0.symm
    · rw [if_neg h0]
      by_cases h32 : s.length < 32
      · rw [if_pos h32, beBytes_length]
      · rw [if_neg h32, hcore _ _ (by omega)]

omit hr hk in
theorem spec_length (d : Bool) (s : Bytes) :
    (if d then AezSpec.decipher r (AezSpec.key key) s else AezSpec.encipher r (AezSpec.key key) s).length = s.length :=
  specD_length d s

/-- C70: for every key and every string of up to 2^32-1 bytes, `Prp::encrypt` returns the AEZ encipherment and `Prp::decrypt` the AEZ decipherment of the
string under the key; `r` is the AES round function on integers. -/
theorem c70_string (junk : Nat → UInt8) (s : Bytes) (h : s.length ≤ 4294967295) :
    ∃ c, mkPrp true (some key) = .ok c ∧ prpString R true (some c) junk false s = .ok (AezSpec.encipher r (AezSpec.key key) s) ∧
      prpString R true (some c) junk true s = .ok (AezSpec.decipher r (AezSpec.key key) s) := by
  refine ⟨ctxOf key, rfl, ?_⟩
  obtain ⟨t, ht⟩ := hash_ok R (ctxOf key)
  have main : ∀ d, prpString R true (some (ctxOf key)) junk d s =
      .ok (if d then AezSpec.decipher r (AezSpec.key key) s else AezSpec.encipher r (AezSpec.key key) s) := by
    intro d
    obtain ⟨z, e, hl, ho⟩ := prpString_ok R (ctxOf key) t ht junk d s h
    rw [e]
    have hlen := spec_length (r := r) (key := key) d s
    refine congrArg Res.ok (list_ext_getD (by rw [hl, hlen]) fun i hi => ?_)
    rw [hlen] at hi
    exact out_spec hr hk ht d s ho i hi
  exact ⟨main false, main true⟩

/-- C70, for the versions on buffers, in place or not: the first bytes of the destination are the AEZ encipherment or decipherment of those of the source. -/
theorem c70_buffer (al d : Bool) (n : Nat) (m : Mem) (hS : n ≤ ssize al m) (hD : n ≤ m.dst.size) :
    ∃ c m', mkPrp true (some key) = .ok c ∧ prpBuf R true (some c) d al n m = .ok m' ∧
      (List.range n).map m'.dst.data =
        (if d then AezSpec.decipher else AezSpec.encipher) r (AezSpec.key key) ((List.range n).map (sdat al m)) := by
  obtain ⟨t, ht⟩ := hash_ok R (ctxOf key)
  obtain ⟨m', e, -, -, ho, -⟩ := aez_ok R (ctxOf key) t ht d al n m hS hD
  refine ⟨ctxOf key, m', rfl, e, ?_⟩
  generalize hs : (List.range n).map (sdat al m) = s
  have hl : s.length = n := by rw [← hs]; simp
  have hP : ∀ i, i < n → sdat al m i = fn s i := by
    intro i hi
    simp [← hs, fn, List.getD_eq_getElem?_getD, hi]
  have ho' : Out R (ctxOf key) t d s.length (fn s) m'.dst.data := by
    rw [hl]
    simp only [Out] at ho ⊢
    by_cases h32 : n < 32
    · rw [if_pos h32] at ho ⊢
      obtain ⟨m2, -, -, -, ho2, -⟩ := aez_ok R (ctxOf key) t ht d false n ⟨⟨n, fn s⟩, ⟨n, fn s⟩⟩ (Nat.le_refl _) (Nat.le_refl _)
      have hdet := Out_det R (ctxOf key) t d n (sdat al m) (fn s) m'.dst.data m2.dst.data hP (by rw [Out, if_pos h32]; exact ho) ho2
      rw [Out, if_pos h32] at ho2
      intro k hk'
      refine Eq.trans ?_ (ho2 k hk')
      exact gb_congr (hdet _ (by omega))
    · rw [if_neg h32] at ho ⊢
      intro i hi
      rw [ho i hi]
      exact coreFn_congr R (ctxOf key) t d n (by omega) _ _ hP i hi
  have key' := out_spec hr hk ht d s ho'
  have hlen := spec_length (r := r) (key := key) d s
  have hif : (if d then AezSpec.decipher else AezSpec.encipher) r (AezSpec.key key) s =
      (if d then AezSpec.decipher r (AezSpec.key key) s else AezSpec.encipher r (AezSpec.key key) s) := by cases d <;> rfl
  rw [hif]
  refine list_ext_getD (by simp [hlen, hl]) fun i hi => ?_
  rw [hlen] at hi
  rw [← key' i hi, List.getD_eq_getElem?_getD]
  simp [show i < n by omega]

/-- C70, for the integer versions: `n` = 4 or 8 bytes, least significant byte first. -/
theorem c70_integer (junk : Nat → UInt8) (n x : Nat) (hn : n = 4 ∨ n = 8) :
    ∃ c, mkPrp true (some key) = .ok c ∧ prpInt R true (some c) junk false n x = .ok (leNat (AezSpec.encipher r (AezSpec.key key) (leBytes n x))) ∧
      prpInt R true (some c) junk true n x = .ok (leNat (AezSpec.decipher r (AezSpec.key key) (leBytes n x))) := by
  obtain ⟨c, h1, h2, h3⟩ := c70_string hr hk junk (leBytes n x) (by rw [leBytes_length]; omega)
  refine ⟨c, h1, ?_, ?_⟩
  · rw [prpInt_eq R c junk false n x (by omega), h2]; rfl
  · rw [prpInt_eq R c junk true n x (by omega), h3]; rfl

/-- The specification is a permutation with its inverse: a consequence for the description itself, whatever the code does. -/
theorem c70_inverse (s : Bytes) (h : s.length ≤ 4294967295) :
    AezSpec.decipher r (AezSpec.key key) (AezSpec.encipher r (AezSpec.key key) s) = s ∧
    AezSpec.encipher r (AezSpec.key key) (AezSpec.decipher r (AezSpec.key key) s) = s := by
  obtain ⟨c, h1, h2, h3⟩ := c70_string hr hk (fun _ => 0) s h
  have le := spec_length (r := r) (key := key) false s
  have ld := spec_length (r := r) (key := key) true s
  simp only [Bool.false_eq_true, if_false, if_true] at le ld
  obtain ⟨c', h1', -, h3'⟩ := c70_string hr hk (fun _ => 0) (AezSpec.encipher r (AezSpec.key key) s) (by omega)
  obtain ⟨c'', h1'', h2'', -⟩ := c70_string hr hk (fun _ => 0) (AezSpec.decipher r (AezSpec.key key) s) (by omega)
  rw [h1] at h1' h1''
  cases h1'; cases h1''
  obtain ⟨z, e1, -, e2⟩ := c30_roundtrip R c (fun _ => 0) (fun _ => 0) false s h
  obtain ⟨w, f1, -, f2⟩ := c30_roundtrip R c (fun _ => 0) (fun _ => 0) true s h
  rw [h2] at e1; rw [h3] at f1
  cases e1; cases f1
  simp only [Bool.not_false, Bool.not_true] at e2 f2
  rw [h3'] at e2; rw [h2''] at f2
  exact ⟨Res.ok.inj e2, Res.ok.inj f2⟩

end

/-! ## Examples -/

def exKey48 : Bytes := (List.range 48).map fun i => UInt8.ofNat (5 * i + 1)

example (s : Bytes) (h : s.length ≤ 4294967295) :
    ∃ c, mkPrp true (some exKey48) = .ok c ∧
      prpString toyR true (some c) (fun _ => 9) false s = .ok (AezSpec.encipher (roundNat toyR) (AezSpec.key exKey48) s) ∧
      prpString toyR true (some c) (fun _ => 9) true s = .ok (AezSpec.decipher (roundNat toyR) (AezSpec.key exKey48) s) :=
  c70_string (roundNat_eq toyR) (by decide) _ s h

example : AezSpec.decipher (roundNat toyR) (AezSpec.key exKey48) (AezSpec.encipher (roundNat toyR) (AezSpec.key exKey48) [1, 2, 3]) = [1, 2, 3] :=
  (c70_inverse (roundNat_eq toyR) (by decide) [1, 2, 3] (by decide)).1

example : ∃ c, mkPrp true (some exKey48) = .ok c ∧
    prpInt toyR true (some c) (fun _ => 0) false 4 77 = .ok (leNat (AezSpec.encipher (roundNat toyR) (AezSpec.key exKey48) [77, 0, 0, 0])) ∧
    prpInt toyR true (some c) (fun _ => 0) true 4 77 = .ok (leNat (AezSpec.decipher (roundNat toyR) (AezSpec.key exKey48) [77, 0, 0, 0])) :=
  c70_integer (roundNat_eq toyR) (by decide) _ 4 77 (Or.inl rfl)

example : ∃ c m', mkPrp true (some exKey48) = .ok c ∧
    prpBuf toyR true (some c) false true 100 ⟨⟨0, fun _ => 0⟩, ⟨120, fun i => UInt8.ofNat i⟩⟩ = .ok m' ∧
      (List.range 100).map m'.dst.data =
        AezSpec.encipher (roundNat toyR) (AezSpec.key exKey48) ((List.range 100).map fun i => UInt8.ofNat i) :=
  c70_buffer (roundNat_eq toyR) (by decide) true false 100 ⟨⟨0, fun _ => 0⟩, ⟨120, fun i => UInt8.ofNat i⟩⟩ (by decide) (by decide)

end Verif.Aez
