import Verif.Io.Pk
import Verif.Io.Base64Props

/-!
# PEM: writing, reading, buffer bounds (C48)
-/

namespace Verif.Io

open Verif Spec

namespace Spec

/-- Lines of 64 characters, each ended by a line feed. -/
def wrap (c : Bytes) : Bytes :=
  if h : c = [] then [] else c.take 64 ++ [0x0a] ++ wrap (c.drop 64)
  termination_by c.length
  decreasing_by
    have : c.length ≠ 0 := fun e => h (List.length_eq_zero_iff.1 e)
    rw [List.length_drop]
    omega

end Spec

theorem wrap_length (c : Bytes) : (wrap c).length = c.length + (c.length + 63) / 64 := by
  induction c using wrap.induct with
  | case1 => rw [wrap]; simp
  | case2 c h ih =>
    rw [wrap, dif_neg h]
    simp only [List.length_append, List.length_take, List.length_drop, List.length_cons, List.length_nil, ih]
    have : c.length ≠ 0 := fun e => h (List.length_eq_zero_iff.1 e)
    omega

theorem wrap_mem {c : Bytes} {b : UInt8} (h : b ∈ wrap c) : b ∈ c ∨ b = 0x0a := by
  induction c using wrap.induct with
  | case1 => rw [wrap] at h; simp at h
  | case2 c hc ih =>
    rw [wrap, dif_neg hc] at h
    simp only [List.mem_append, List.mem_cons, List.not_mem_nil, or_false] at h
    rcases h with (h | h) | h
    · exact Or.inl (List.mem_of_mem_take h)
    · exact Or.inr h
    · rcases ih h with h | h
      · exact Or.inl (List.mem_of_mem_drop h)
      · exact Or.inr h

theorem wrap_filter {c : Bytes} (h : ∀ b ∈ c, b ≠ 0x0a) : (wrap c).filter (fun b => b ≠ 0x0a) = c := by
  induction c using wrap.induct with
  | case1 => rw [wrap]; simp
  | case2 c hc ih =>
    rw [wrap, dif_neg hc, List.filter_append, List.filter_append, ih (fun b hb => h b (List.mem_of_mem_drop hb)),
      List.filter_eq_self.2 (fun b hb => by simpa using h b (List.mem_of_mem_take hb))]
    have : List.filter (fun b : UInt8 => decide (b ≠ 0x0a)) [0x0a] = [] := by decide
    rw [this, List.append_nil, List.take_append_drop]

theorem blit_ok {cap : Nat} {out b : Bytes} (h : out.length + b.length ≤ cap) : blit cap out b = .ok (out ++ b) := by
  unfold blit
  rw [if_pos h]

theorem pemLines_spec {cap : Nat} (c out : Bytes) (h : out.length + (wrap c).length ≤ cap) : pemLines cap c out = .ok (out ++ wrap c) := by
  induction c using wrap.induct generalizing out with
  | case1 => rw [pemLines, wrap]; simp
  | case2 c hc ih =>
    have hl : c.length ≠ 0 := fun e => hc (List.length_eq_zero_iff.1 e)
    have e : ∀ len, len = (if c.length > 64 then 64 else c.length) → c.take len = c.take 64 ∧ c.drop len = c.drop 64 ∧ (c.take len).length = len := by
      intro len hlen
      by_cases h64 : c.length > 64
      · rw [if_pos h64] at hlen
        subst hlen
        exact ⟨rfl, rfl, by simp; omega⟩
      · rw [if_neg h64] at hlen
        subst hlen
        exact ⟨by rw [List.take_of_length_le (le_refl _), List.take_of_length_le (by omega)],
          by rw [List.drop_eq_nil_of_le (le_refl _), List.drop_eq_nil_of_le (by omega)], by simp⟩
    obtain ⟨e1, e2, -⟩ := e _ rfl
    have hw : wrap c = c.take 64 ++ [0x0a] ++ wrap (c.drop 64) := by rw [wrap, dif_neg hc]
    rw [hw] at h
    simp only [List.length_append, List.length_cons, List.length_nil] at h
    rw [pemLines, dif_neg hl]
    simp only
    rw [e1, e2, blit_ok (by omega), Res.bind_ok, put_ok (by simp only [List.length_append]; omega), Res.bind_ok,
      ih _ (by simp only [List.length_append, List.length_cons, List.length_nil]; omega)]
    rw [hw]
    simp [List.append_assoc]

/-- **C48**: the writer never writes outside the buffer: it either refuses, or stores exactly the header, the lines of the base64 text, the
footer and a zero byte, which fit the buffer. It succeeds if the buffer has the size it announces. -/
theorem c48_write (header footer der : Bytes) (hd : der ≠ []) (hlen : der.length < 2 ^ 60) (hh : header.length + footer.length < 2 ^ 32)
    (bufLen : Nat) :
    let text := header ++ wrap (base64 der) ++ footer ++ [0]
    let need := 4 * ((der.length + 2) / 3) + 1 + header.length + footer.length + (4 * ((der.length + 2) / 3) + 1) / 64 + 1
    text.length ≤ need ∧ pemWrite header footer der bufLen = .ok (if need ≤ bufLen then some text else none) := by
  simp only
  have hL : (base64 der).length = 4 * ((der.length + 2) / 3) := base64_length der
  have hw := wrap_length (base64 der)
  rw [hL] at hw
  generalize hLL : 4 * ((der.length + 2) / 3) = L at *
  have hLb : L < 2 ^ 62 := by omega
  have htl : (header ++ wrap (base64 der) ++ footer ++ [0]).length ≤ L + 1 + header.length + footer.length + (L + 1) / 64 + 1 := by
    simp only [List.length_append, List.length_cons, List.length_nil, hw]
    omega
  refine ⟨htl, ?_⟩
  unfold pemWrite
  rw [c44_encode der hd (by omega) none]
  rw [Res.bind_ok, hLL, show B64.olen (.tooSmall (L + 1)) = L + 1 from rfl]
  unfold pemFill
  simp only
  have hmod : (L + 1 + (header.length + footer.length + (L + 1) / 64 + 1)) % W64 = L + 1 + (header.length + footer.length + (L + 1) / 64 + 1) :=
    Nat.mod_eq_of_lt (by omega)
  by_cases hfit : L + 1 + header.length + footer.length + (L + 1) / 64 + 1 ≤ bufLen
  · rw [if_neg (by rw [hmod]; omega), if_pos hfit, c44_encode der hd (by omega) (some (L + 1))]
    simp only [Res.bind_ok, hLL]
    rw [if_pos (by omega)]
    simp only
    rw [blit_ok (by simp; omega), Res.bind_ok, List.take_left' rfl, pemLines_spec _ _ (by simp only [List.nil_append]; rw [hw]; omega), Res.bind_ok,
      blit_ok (by simp only [List.nil_append, List.length_append]; omega), Res.bind_ok,
      put_ok (by simp only [List.nil_append, List.length_append]; omega)]
    rfl
  · rw [if_pos (by rw [hmod]; omega), if_neg hfit]

/-! ## Searching -/

theorem findFirst_some {pat : Bytes} : ∀ {s : Bytes} {i : Nat}, findFirst pat s = some i → pat <+: s.drop i ∧ i ≤ s.length ∧
    ∀ j, j < i → ¬ pat <+: s.drop j
  | [], i, h => by
    rw [findFirst] at h
    by_cases hp : pat = []
    · rw [if_pos hp] at h
      simp only [Option.some.injEq] at h
      subst h
      subst hp
      exact ⟨List.nil_prefix, by simp, by simp⟩
    · rw [if_neg hp] at h; cases h
  | c :: r, i, h => by
    rw [findFirst] at h
    by_cases hp : pat <+: c :: r
    · rw [if_pos hp] at h
      simp only [Option.some.injEq] at h
      subst h
      exact ⟨hp, by simp, by simp⟩
    · rw [if_neg hp] at h
      rcases hr : findFirst pat r with _ | i'
      · rw [hr] at h; cases h
      · rw [hr] at h
        simp only [Option.map_some, Option.some.injEq] at h
        subst h
        obtain ⟨h1, h2, h3⟩ := findFirst_some hr
        refine ⟨by simpa using h1, by simp; omega, ?_⟩
        intro j hj
        rcases j with _ | j
        · simpa using hp
        · simpa using h3 j (by omega)

theorem findFirst_eq {pat : Bytes} : ∀ {s : Bytes} {i : Nat}, pat <+: s.drop i → i ≤ s.length → (∀ j, j < i → ¬ pat <+: s.drop j) →
    findFirst pat s = some i
  | [], i, h, hi, _ => by
    have : i = 0 := by simpa using hi
    subst this
    rw [findFirst, if_pos (by simpa using h)]
  | c :: r, i, h, hi, hj => by
    rw [findFirst]
    rcases i with _ | i
    · rw [if_pos (by simpa using h)]
    · rw [if_neg (by simpa using hj 0 (by omega)), findFirst_eq (i := i) (by simpa using h) (by simpa using hi) (fun j hji => by
        simpa using hj (j + 1) (by omega))]
      rfl

theorem cstr_spec : ∀ {data : Bytes}, (0 : UInt8) ∈ data → (cstr data).length < data.length ∧ data[(cstr data).length]? = some 0 ∧
    (∀ i, i < (cstr data).length → data[i]? = (cstr data)[i]?) ∧ ∀ b ∈ cstr data, b ≠ 0
  | [], h => by simp at h
  | c :: r, h => by
    by_cases hc : c = 0
    · subst hc
      simp [cstr]
    · have hr : (0 : UInt8) ∈ r := by
        rcases List.mem_cons.1 h with h | h
        · exact absurd h.symm hc
        · exact h
      obtain ⟨h1, h2, h3, h4⟩ := cstr_spec hr
      rw [cstr, if_neg hc]
      refine ⟨by simp; omega, by simpa using h2, ?_, ?_⟩
      · intro i hi
        rcases i with _ | i
        · rfl
        · simpa using h3 i (by simpa using hi)
      · intro b hb
        rcases List.mem_cons.1 hb with rfl | hb
        · exact hc
        · exact h4 b hb

/-- Skipping a character other than zero stays within the C string. -/
theorem skipIf_ok {data : Bytes} (h0 : (0 : UInt8) ∈ data) {p : Nat} (hp : p ≤ (cstr data).length) {c : UInt8} (hc : c ≠ 0) :
    ∃ p', skipIf data p c = .ok p' ∧ p ≤ p' ∧ p' ≤ (cstr data).length ∧ (data[p]? = some c → p' = p + 1) ∧ (data[p]? ≠ some c → p' = p) := by
  obtain ⟨h1, h2, h3, h4⟩ := cstr_spec h0
  have hlt : p < data.length := by omega
  unfold skipIf rd
  rw [List.getElem?_eq_getElem hlt]
  simp only [Res.bind_ok]
  by_cases hb : data[p] = c
  · rw [if_pos hb]
    have : p ≠ (cstr data).length := by
      rintro rfl
      rw [List.getElem?_eq_getElem hlt] at h2
      simp only [Option.some.injEq] at h2
      exact hc (by rw [← hb, h2])
    exact ⟨p + 1, rfl, by omega, by omega, fun _ => rfl, fun h => absurd (by rw [hb]) h⟩
  · rw [if_neg hb]
    exact ⟨p, rfl, le_refl _, hp, fun h => absurd (by simpa using h) hb, fun _ => rfl⟩

theorem rd_ok {data : Bytes} (h0 : (0 : UInt8) ∈ data) {p : Nat} (hp : p ≤ (cstr data).length) : ∃ c, rd data p = .ok c ∧ data[p]? = some c := by
  have hlt : p < data.length := by have := (cstr_spec h0).1; omega
  exact ⟨data[p], by unfold rd; rw [List.getElem?_eq_getElem hlt], List.getElem?_eq_getElem hlt⟩

theorem pemDecode_safe {body : Bytes} (h : body.length < 2 ^ 63) (u : Nat) : pemDecode body u ≠ .ub := by
  unfold pemDecode
  obtain ⟨h1, -, -⟩ := c45_bounds body h none
  rcases hd : decode none body with r | e | _
  · rw [Res.bind_ok]
    have fin : ∀ len, (decode (some len) body >>= fun r => match r with
        | .ok out _ => .ok (.ok out u)
        | _ => (.ok .invalidData : Res PemR)) ≠ .ub := by
      intro len
      obtain ⟨h2, -, -⟩ := c45_bounds body h (some len)
      rcases hd2 : decode (some len) body with r2 | e | _
      · rw [Res.bind_ok]
        rcases r2 with _ | _ | _ <;> simp
      · simp
      · exact absurd hd2 h2
    rcases r with ⟨_, len⟩ | len | _
    · exact fin len
    · exact fin len
    · simp
  · simp
  · exact absurd hd h1

/-- **C48**: the reader never reads or writes outside its buffers, for any zero-terminated data, header and footer. -/
theorem c48_read_safe (header footer data : Bytes) (h0 : (0 : UInt8) ∈ data) (hlen : data.length < 2 ^ 63) : pemRead header footer data ≠ .ub := by
  unfold pemRead strstr
  rw [if_pos h0, Res.bind_ok, if_pos h0]
  rcases hs1 : findFirst header (cstr data) with _ | s1
  · simp
  · simp only [Res.bind_ok]
    rcases hs2 : findFirst footer (cstr data) with _ | s2
    · simp
    · simp only
      by_cases hle : s2 ≤ s1
      · rw [if_pos hle]; simp
      · rw [if_neg hle]
        have hp : ∀ {pat : Bytes} {s : Nat}, findFirst pat (cstr data) = some s → s + pat.length ≤ (cstr data).length := by
          intro pat s hh
          obtain ⟨a1, a2, -⟩ := findFirst_some hh
          have := a1.length_le
          rw [List.length_drop] at this
          omega
        unfold pemBody
        obtain ⟨p1, e1, -, b1, -⟩ := skipIf_ok h0 (hp hs1) (c := 0x20) (by decide)
        rw [e1, Res.bind_ok]
        obtain ⟨p2, e2, -, b2, -⟩ := skipIf_ok h0 b1 (c := 0x0d) (by decide)
        rw [e2, Res.bind_ok]
        obtain ⟨c, e3, -⟩ := rd_ok h0 b2
        rw [e3, Res.bind_ok]
        by_cases hc : c ≠ 0x0a
        · rw [if_pos hc]; simp
        · rw [if_neg hc]
          simp only
          obtain ⟨q1, f1, -, g1, -⟩ := skipIf_ok h0 (hp hs2) (c := 0x20) (by decide)
          rw [f1, Res.bind_ok]
          obtain ⟨q2, f2, -, g2, -⟩ := skipIf_ok h0 g1 (c := 0x0d) (by decide)
          rw [f2, Res.bind_ok]
          obtain ⟨q3, f3, -, g3, -⟩ := skipIf_ok h0 g2 (c := 0x0a) (by decide)
          rw [f3, Res.bind_ok]
          by_cases hpt : p2 + 1 + 22 ≤ s2 ∧ slice data (p2 + 1) (p2 + 1 + 22) = procType
          · rw [if_pos hpt]; simp
          · rw [if_neg hpt]
            by_cases hse : s2 ≤ p2 + 1
            · rw [if_pos hse]; simp
            · rw [if_neg hse]
              apply pemDecode_safe
              unfold slice
              simp only [List.length_drop, List.length_take]
              omega

/-! ## Reading what was written -/

/-- Headers and footers for which the reader finds the footer at its place: both without zero bytes, the footer begins with `-`, and does not
begin inside the header line. -/
structure Marks (header footer : Bytes) : Prop where
  h0 : ∀ b ∈ header, b ≠ 0
  f0 : ∀ b ∈ footer, b ≠ 0
  dash : footer.head? = some 0x2d
  sep : ∀ i, i ≤ header.length → ∃ k, i + k ≤ header.length ∧ k < footer.length ∧ (header ++ [0x0a])[i + k]? ≠ footer[k]?

theorem base64_chars {s : Bytes} {c : UInt8} (h : c ∈ base64 s) : c ≠ 0 ∧ c ≠ 0x0a ∧ c ≠ 0x2d ∧ c ≠ 0x20 := by
  have key : ∀ c ∈ alphabet, c ≠ 0 ∧ c ≠ 0x0a ∧ c ≠ 0x2d ∧ c ≠ 0x20 := by decide +kernel
  obtain ⟨h1, h2, -⟩ := base64_sixes s
  rw [h1] at h
  rcases List.mem_append.1 h with h | h
  · obtain ⟨v, hv, rfl⟩ := List.mem_map.1 h
    exact key _ (digit_mem v (h2 v hv))
  · rw [(List.mem_replicate.1 h).2]
    decide

theorem wrap_chars {s : Bytes} {c : UInt8} (h : c ∈ wrap (base64 s)) : c ≠ 0 ∧ c ≠ 0x2d ∧ c ≠ 0x20 := by
  rcases wrap_mem h with h | rfl
  · have := base64_chars h
    tauto
  · decide

theorem cstr_append {a b : Bytes} (ha : ∀ c ∈ a, c ≠ 0) : cstr (a ++ b) = a ++ cstr b := by
  induction a with
  | nil => rfl
  | cons c a ih => rw [List.cons_append, cstr, if_neg (ha c (by simp)), ih (fun c hc => ha c (by simp [hc])), List.cons_append]

/-- The footer does not begin inside the header line or the text. -/
theorem footer_first {header footer B : Bytes} (hm : Marks header footer) (hB : ∀ c ∈ B, c ≠ 0x2d) (r : Bytes) {j : Nat} (hj : j < header.length + 1 + B.length) :
    ¬ footer <+: (header ++ 0x0a :: (B ++ r)).drop j := by
  intro hpre
  by_cases hjh : j ≤ header.length
  · obtain ⟨k, hk1, hk2, hk3⟩ := hm.sep j hjh
    apply hk3
    have e1 : ((header ++ 0x0a :: (B ++ r)).drop j)[k]? = footer[k]? := by
      obtain ⟨t, ht⟩ := hpre
      rw [← ht, List.getElem?_append_left hk2]
    rw [List.getElem?_drop] at e1
    rw [← e1, show header ++ 0x0a :: (B ++ r) = (header ++ [0x0a]) ++ (B ++ r) by simp,
      List.getElem?_append_left (l₁ := header ++ [0x0a]) (by rw [List.length_append, List.length_singleton]; omega)]
  · have e1 : ((header ++ 0x0a :: (B ++ r)).drop j).head? = footer.head? := by
      obtain ⟨t, ht⟩ := hpre
      have hdash := hm.dash
      rcases hfo : footer with _ | ⟨f, fs⟩
      · rw [hfo] at hdash; cases hdash
      · rw [← ht, hfo]; rfl
    rw [hm.dash, List.head?_drop, show header ++ 0x0a :: (B ++ r) = (header ++ [0x0a]) ++ (B ++ r) by simp,
      List.getElem?_append_right (by simp; omega), List.getElem?_append_left (by simp; omega)] at e1
    exact hB _ (List.mem_of_getElem? e1) rfl

/-- **C48**: reading the header, a line feed, the lines of the base64 text, the footer and a zero-terminated rest gives back the bytes, and
reports the position after the footer and its line end. -/
theorem c48_read {header footer : Bytes} (hm : Marks header footer) (der : Bytes) (hd : der ≠ []) (rest : Bytes) (h0 : (0 : UInt8) ∈ rest)
    (hlen : (header ++ 0x0a :: (wrap (base64 der) ++ (footer ++ rest))).length < 2 ^ 63) :
    ∃ u, pemRead header footer (header ++ 0x0a :: (wrap (base64 der) ++ (footer ++ rest))) = .ok (.ok der u) := by
  generalize hB : wrap (base64 der) = B at *
  generalize hD : header ++ 0x0a :: (B ++ (footer ++ rest)) = data at *
  have hBc : ∀ c ∈ B, c ≠ 0 ∧ c ≠ 0x2d ∧ c ≠ 0x20 := fun c hc => by rw [← hB] at hc; exact wrap_chars hc
  have hz : (0 : UInt8) ∈ data := by rw [← hD]; simp [h0]
  have hcs : cstr data = header ++ 0x0a :: (B ++ (footer ++ cstr rest)) := by
    rw [← hD, cstr_append hm.h0, cstr, if_neg (by decide), cstr_append (fun c hc => (hBc c hc).1), cstr_append hm.f0]
  have hf1 : findFirst header (cstr data) = some 0 := by
    apply findFirst_eq
    · rw [hcs]; simp
    · simp
    · simp
  have hpos : header.length + 1 + B.length ≤ (cstr data).length := by rw [hcs]; simp; omega
  have hf2 : findFirst footer (cstr data) = some (header.length + 1 + B.length) := by
    apply findFirst_eq
    · rw [hcs, show header ++ 0x0a :: (B ++ (footer ++ cstr rest)) = (header ++ [0x0a] ++ B) ++ (footer ++ cstr rest) by simp,
        List.drop_left' (by simp; omega)]
      exact List.prefix_append _ _
    · exact hpos
    · intro j hj hpre
      rw [hcs] at hpre
      exact footer_first hm (fun c hc => (hBc c hc).2.1) _ hj hpre
  have hnl : data[header.length]? = some 0x0a := by rw [← hD]; simp
  unfold pemRead strstr
  rw [if_pos hz, Res.bind_ok, if_pos hz, hf1, hf2]
  simp only [Res.bind_ok]
  rw [if_neg (by omega)]
  unfold pemBody
  have hplen : ∀ {x : Nat}, x ≤ header.length → 0 + x ≤ (cstr data).length := by intro x hx; omega
  obtain ⟨p1, e1, -, b1, -, d1⟩ := skipIf_ok hz (hplen (le_refl _)) (c := 0x20) (by decide)
  rw [e1, Res.bind_ok]
  have hp1 : p1 = 0 + header.length := d1 (by rw [Nat.zero_add, hnl]; decide)
  subst hp1
  obtain ⟨p2, e2, -, b2, -, d2⟩ := skipIf_ok hz b1 (c := 0x0d) (by decide)
  rw [e2, Res.bind_ok]
  have hp2 : p2 = 0 + header.length := d2 (by rw [Nat.zero_add, hnl]; decide)
  subst hp2
  have hrd : rd data (0 + header.length) = .ok 0x0a := by unfold rd; rw [Nat.zero_add, hnl]
  rw [hrd, Res.bind_ok, if_neg (by decide)]
  simp only
  have hfl : header.length + 1 + B.length + footer.length ≤ (cstr data).length := by rw [hcs]; simp; omega
  obtain ⟨q1, f1, -, g1, -⟩ := skipIf_ok hz hfl (c := 0x20) (by decide)
  rw [f1, Res.bind_ok]
  obtain ⟨q2, f2, -, g2, -⟩ := skipIf_ok hz g1 (c := 0x0d) (by decide)
  rw [f2, Res.bind_ok]
  obtain ⟨q3, f3, -, g3, -⟩ := skipIf_ok hz g2 (c := 0x0a) (by decide)
  rw [f3, Res.bind_ok]
  have hL := base64_length der
  have hder : der.length ≠ 0 := fun e => hd (List.length_eq_zero_iff.1 e)
  have hBl : B.length = (base64 der).length + ((base64 der).length + 63) / 64 := by rw [← hB, wrap_length]
  have hsl : slice data (0 + header.length + 1) (header.length + 1 + B.length) = B := by
    unfold slice
    rw [← hD, show header ++ 0x0a :: (B ++ (footer ++ rest)) = (header ++ [0x0a] ++ B) ++ (footer ++ rest) by simp,
      List.take_left' (by simp; omega), List.drop_left' (by simp)]
  have hnp : ¬ (0 + header.length + 1 + 22 ≤ header.length + 1 + B.length ∧ slice data (0 + header.length + 1) (0 + header.length + 1 + 22) = procType) := by
    rintro ⟨hle, heq⟩
    have h10 : (slice data (0 + header.length + 1) (0 + header.length + 1 + 22))[4]? = some 0x2d := by rw [heq]; decide +kernel
    unfold slice at h10
    rw [List.getElem?_drop, List.getElem?_take, if_pos (by omega), ← hD,
      show header ++ 0x0a :: (B ++ (footer ++ rest)) = (header ++ [0x0a]) ++ (B ++ (footer ++ rest)) by simp,
      List.getElem?_append_right (by simp), List.getElem?_append_left (by simp; omega)] at h10
    exact (hBc _ (List.mem_of_getElem? h10)).2.1 rfl
  rw [if_neg hnp, if_neg (by omega), hsl]
  have hdl : data.length = header.length + (B.length + (footer.length + rest.length)) + 1 := by
    rw [← hD]
    simp
    omega
  obtain ⟨c1, c2⟩ := c44_decode der B hd (by rw [← hB]; exact wrap_filter (fun b hb => (base64_chars hb).2.1)) (by omega)
  unfold pemDecode
  rw [c1, Res.bind_ok]
  simp only
  rw [c2 _ (le_refl _)]
  exact ⟨q3, rfl⟩

/-- **C48**: the round trip: text written with a header line and read back with the header without its line feed (as the callers do). -/
theorem c48_roundtrip {header footer : Bytes} (hm : Marks header footer) (der : Bytes) (hd : der ≠ []) (hlen : der.length < 2 ^ 60) (tail : Bytes)
    (hh : header.length + footer.length + tail.length < 2 ^ 31) (bufLen : Nat) (out : Bytes)
    (h : pemWrite (header ++ [0x0a]) (footer ++ tail) der bufLen = .ok (some out)) :
    out.length ≤ bufLen ∧ ∃ u, pemRead header footer out = .ok (.ok der u) := by
  have hw := c48_write (header ++ [0x0a]) (footer ++ tail) der hd hlen (by simp; omega) bufLen
  simp only at hw
  obtain ⟨h1, h2⟩ := hw
  rw [h2] at h
  by_cases hfit : 4 * ((der.length + 2) / 3) + 1 + (header ++ [0x0a]).length + (footer ++ tail).length + (4 * ((der.length + 2) / 3) + 1) / 64 + 1 ≤ bufLen
  · rw [if_pos hfit] at h
    simp only [Res.ok.injEq, Option.some.injEq] at h
    subst h
    refine ⟨by omega, ?_⟩
    have hL := base64_length der
    have hWl := wrap_length (base64 der)
    have := c48_read hm der hd (tail ++ [0]) (by simp) (by
      simp only [List.length_append, List.length_cons, List.length_nil] at h1 ⊢
      omega)
    simpa using this
  · rw [if_neg hfit] at h; cases h

theorem marks_of_check {header footer : Bytes} (h1 : header.all (· ≠ 0) = true) (h2 : footer.all (· ≠ 0) = true) (h3 : footer.head? = some 0x2d)
    (h4 : (List.range (header.length + 1)).all (fun i => (List.range (header.length + 1 - i)).any fun k =>
      decide (k < footer.length) && decide ((header ++ [0x0a])[i + k]? ≠ footer[k]?)) = true) : Marks header footer := by
  refine ⟨fun b hb => by simpa using List.all_eq_true.1 h1 b hb, fun b hb => by simpa using List.all_eq_true.1 h2 b hb, h3, ?_⟩
  intro i hi
  have := List.all_eq_true.1 h4 i (by simp; omega)
  obtain ⟨k, hk1, hk2⟩ := List.any_eq_true.1 this
  rw [Bool.and_eq_true, decide_eq_true_eq, decide_eq_true_eq] at hk2
  exact ⟨k, by simp at hk1; omega, hk2.1, hk2.2⟩

theorem privMarks : Marks privHeader privFooter := by
  apply marks_of_check <;> decide +kernel
theorem pubMarks : Marks pubHeader pubFooter := by
  apply marks_of_check <;> decide +kernel

example := c48_write privHeader privFooter [1, 2, 3] (by simp) (by decide) (by decide +kernel) 100
example := c48_read_safe privHeader privFooter ([0x2d, 0x2d] ++ privHeader ++ privFooter ++ [0]) (by simp) (by decide +kernel)
example := c48_read privMarks [9, 8, 7, 6] (by simp) [0x0a, 0] (by simp) (by decide +kernel)
example : ∃ out, pemWrite (privHeader ++ [0x0a]) (privFooter ++ [0x0a]) [1, 2, 3] 100 = .ok (some out) ∧ ∃ u, pemRead privHeader privFooter out = .ok (.ok [1, 2, 3] u) := by
  refine ⟨_, (c48_write (privHeader ++ [0x0a]) (privFooter ++ [0x0a]) [1, 2, 3] (by simp) (by decide) (by decide +kernel) 100).2.trans (by rw [if_pos (by decide +kernel)]), ?_⟩
  exact (c48_roundtrip privMarks [1, 2, 3] (by simp) (by decide) [0x0a] (by decide +kernel) 100 _
    ((c48_write (privHeader ++ [0x0a]) (privFooter ++ [0x0a]) [1, 2, 3] (by simp) (by decide) (by decide +kernel) 100).2.trans (by rw [if_pos (by decide +kernel)]))).2

end Verif.Io
